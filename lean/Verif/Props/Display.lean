import Mathlib.Order.Lattice
import Mathlib.Order.Defs.LinearOrder
import Verif.Model.Display
/-
C90: what the display functions show, and which device is chosen.
-/
namespace Verif
namespace Disp

/-- C90. `trace_utils.show` raises TypeError for every trace but the empty one. -/
theorem C90_show (tr : List (Str × Ten)) : traceShow tr = if tr = [] then .ok "{}".toList else .error .type := by
  cases tr with
  | nil => rfl
  | cons x xs => rfl

/-- C90. The options of `showvals`, `showprobs` and `showdists` have no effect; with `pretty`, neither have `delim` and `mlen` of `showall`. -/
theorem C90_options (tr : List (Str × Var)) (o o' : Opts) :
    showvals tr o = showvals tr o' ∧ showprobs tr o = showprobs tr o' ∧ showdists tr o = showdists tr o' ∧
      ∀ w, o.pretty = true → o'.pretty = true → o.sort = o'.sort → showall tr o w = showall tr o' w := by
  refine ⟨rfl, rfl, rfl, fun w h h' hs => ?_⟩
  unfold showall
  rw [h, h', hs]
  rfl

theorem strLe_total : ∀ a b : Str, (strLe a b || strLe b a) = true
  | [], _ => rfl
  | _ :: _, [] => by simp [strLe]
  | a :: as, b :: bs => by
    unfold strLe
    rcases Nat.lt_trichotomy a.toNat b.toNat with h | h | h
    · simp [h]
    · have := strLe_total as bs
      simp [h, this]
    · simp [h, Nat.lt_asymm h]

theorem strLe_trans : ∀ a b c : Str, strLe a b = true → strLe b c = true → strLe a c = true
  | [], _, _, _, _ => rfl
  | a :: as, b, c, h1, h2 => by
    cases b with
    | nil => simp [strLe] at h1
    | cons b bs =>
      cases c with
      | nil => simp [strLe] at h2
      | cons c cs =>
        unfold strLe at h1 h2 ⊢
        by_cases hab : a.toNat < b.toNat
        · by_cases hbc : b.toNat < c.toNat
          · rw [if_pos (by omega)]
          · rw [if_neg hbc] at h2
            by_cases hcb : c.toNat < b.toNat
            · rw [if_pos hcb] at h2
              cases h2
            · rw [if_pos (by omega)]
        · rw [if_neg hab] at h1
          by_cases hba : b.toNat < a.toNat
          · rw [if_pos hba] at h1
            cases h1
          · rw [if_neg hba] at h1
            by_cases hbc : b.toNat < c.toNat
            · rw [if_pos (by omega)]
            · rw [if_neg hbc] at h2
              by_cases hcb : c.toNat < b.toNat
              · rw [if_pos hcb] at h2
                cases h2
              · rw [if_neg hcb] at h2
                rw [if_neg (by omega), if_neg (by omega)]
                exact strLe_trans as bs cs h1 h2

theorem itemsShow_ok (mlen : Nat) (w : What) : ∀ (l : List (Str × Var)) (f : Var → Str), (∀ kv ∈ l, showRV kv.2 w = .ok (f kv.2)) →
    itemsShow mlen w l = .ok (l.map fun kv => padLeft mlen kv.1 ++ "-➢".toList ++ f kv.2)
  | [], _, _ => rfl
  | (k, v) :: l, f, h => by
    rw [itemsShow, h (k, v) (by simp), itemsShow_ok mlen w l f fun kv hk => h kv (by simp [hk])]
    rfl

theorem le_foldl_max : ∀ (l : List Nat) (a : Nat), a ≤ l.foldl max a ∧ ∀ x ∈ l, x ≤ l.foldl max a
  | [], a => ⟨le_rfl, fun _ h => (by cases h)⟩
  | b :: l, a => by
    obtain ⟨h1, h2⟩ := le_foldl_max l (max a b)
    refine ⟨(le_max_left a b).trans h1, fun x hx => ?_⟩
    rcases List.mem_cons.1 hx with rfl | hx
    · exact (le_max_right a x).trans h1
    · exact h2 x hx

theorem foldl_max_mem : ∀ (l : List Nat) (a : Nat), l.foldl max a = a ∨ l.foldl max a ∈ l
  | [], a => .inl rfl
  | b :: l, a => by
    rcases foldl_max_mem l (max a b) with h | h
    · rcases (by omega : max a b = a ∨ max a b = b) with h' | h'
      · left
        rw [List.foldl_cons, h, h']
      · right
        rw [List.foldl_cons, h, h']
        simp
    · right
      rw [List.foldl_cons]
      exact List.mem_cons_of_mem _ h

/-- C90. What `showall` shows of a trace by default: every variable once, on a line of its own, in the order of their names, with the names aligned to the right
in a column of the width of the longest. -/
theorem C90_showall (tr : List (Str × Var)) (hne : tr ≠ []) (w : What) (f : Var → Str) (h : ∀ kv ∈ tr, showRV kv.2 w = .ok (f kv.2)) :
    ∃ (l : List (Str × Var)) (n : Nat), l.Perm tr ∧ l.Pairwise (fun a b => strLe a.1 b.1 = true) ∧ (∀ kv ∈ tr, kv.1.length ≤ n) ∧ (∃ kv ∈ tr, kv.1.length = n) ∧
      showall tr {} w = .ok ("{\n,".toList ++ join "\n,".toList (l.map fun kv => List.replicate (n - kv.1.length) ' ' ++ kv.1 ++ "-➢".toList ++ f kv.2) ++ "}".toList) := by
  have hp : (tr.mergeSort (fun a b => strLe a.1 b.1)).Perm tr := List.mergeSort_perm tr _
  have hlen : ∀ kv ∈ tr, kv.1.length ≤ (tr.map fun kv : Str × Var => kv.1.length).foldl max 0 := fun kv hk =>
    (le_foldl_max (tr.map fun kv : Str × Var => kv.1.length) 0).2 _ (List.mem_map.2 ⟨kv, hk, rfl⟩)
  refine ⟨tr.mergeSort (fun a b => strLe a.1 b.1), (tr.map fun kv : Str × Var => kv.1.length).foldl max 0, hp, ?_, hlen, ?_, ?_⟩
  · exact List.pairwise_mergeSort (le := fun a b : Str × Var => strLe a.1 b.1) (fun a b c : Str × Var => strLe_trans a.1 b.1 c.1) (fun a b : Str × Var => strLe_total a.1 b.1) tr
  · rcases foldl_max_mem (tr.map fun kv : Str × Var => kv.1.length) 0 with h0 | h0
    · obtain ⟨kv, hk⟩ := List.exists_mem_of_ne_nil tr hne
      exact ⟨kv, hk, by have := hlen kv hk; rw [h0] at this ⊢; omega⟩
    · obtain ⟨kv, hk, e⟩ := List.mem_map.1 h0
      exact ⟨kv, hk, e⟩
  · unfold showall
    rw [if_neg (by rw [List.length_eq_zero_iff]; exact hne)]
    have hi := itemsShow_ok ((tr.map fun kv : Str × Var => kv.1.length).foldl max 0) w (tr.mergeSort (fun a b => strLe a.1 b.1)) f fun kv hk => h kv (hp.mem_iff.1 hk)
    show (do
      let ss ← itemsShow ((tr.map fun kv : Str × Var => kv.1.length).foldl max 0) w (tr.mergeSort (fun a b => strLe a.1 b.1))
      Except.ok ("{".toList ++ (if '\n' = '\n' ∨ '\n' = ',' then "\n,".toList else []) ++ join "\n,".toList ss ++ "}".toList)) = _
    rw [hi, if_pos (.inl rfl)]
    rfl

/-- C90. The empty trace is shown as `Trace{}` whatever is asked for. Otherwise `showvals` shows exactly the values, whatever its options; `showprobs` the log probabilities, if all of them
are tensors; and `showdists` the distributions with their parameters, if all of these are tensors: in the form given in `C90_showall`. -/
theorem C90_show_only (tr : List (Str × Var)) (o : Opts) (w : What) : showall [] o w = .ok "Trace{}".toList ∧
    (tr ≠ [] → ∃ (l : List (Str × Var)) (n : Nat), l.Perm tr ∧
      showvals tr o = .ok ("{\n,".toList ++ join "\n,".toList (l.map fun kv => List.replicate (n - kv.1.length) ' ' ++ kv.1 ++ "-➢".toList ++ ("value=".toList ++ tenShow kv.2.value)) ++ "}".toList) ∧
      (∀ lp : Var → Ten, (∀ kv ∈ tr, kv.2.logProb = some (lp kv.2)) →
        showprobs tr o = .ok ("{\n,".toList ++ join "\n,".toList (l.map fun kv => List.replicate (n - kv.1.length) ' ' ++ kv.1 ++ "-➢".toList ++ ("log_prob=".toList ++ tenShow (lp kv.2))) ++ "}".toList)) ∧
      ∀ ps : Var → List (Str × Ten), (∀ kv ∈ tr, kv.2.dist.props = (ps kv.2).map fun p => (p.1, some p.2)) →
        showdists tr o = .ok ("{\n,".toList ++ join "\n,".toList (l.map fun kv => List.replicate (n - kv.1.length) ' ' ++ kv.1 ++ "-➢".toList ++
          (kv.2.dist.name ++ "(dist=".toList ++ kv.2.dist.name ++ "((".toList ++ join ", ".toList ((ps kv.2).map fun p => p.1 ++ "=".toList ++ tenShow p.2) ++ ")".toList)) ++ "}".toList)) := by
  refine ⟨rfl, fun hne => ?_⟩
  have hp : (tr.mergeSort (fun a b => strLe a.1 b.1)).Perm tr := List.mergeSort_perm tr _
  have key : ∀ (w : What) (f : Var → Str), (∀ kv ∈ tr, showRV kv.2 w = .ok (f kv.2)) → showall tr {} w = .ok ("{\n,".toList ++ join "\n,".toList
      ((tr.mergeSort (fun a b => strLe a.1 b.1)).map fun kv => List.replicate ((tr.map fun kv : Str × Var => kv.1.length).foldl max 0 - kv.1.length) ' ' ++ kv.1 ++ "-➢".toList ++ f kv.2) ++ "}".toList) := by
    intro w f h
    unfold showall
    rw [if_neg (by rw [List.length_eq_zero_iff]; exact hne)]
    have hi := itemsShow_ok ((tr.map fun kv : Str × Var => kv.1.length).foldl max 0) w (tr.mergeSort (fun a b => strLe a.1 b.1)) f fun kv hk => h kv (hp.mem_iff.1 hk)
    show (do
      let ss ← itemsShow ((tr.map fun kv : Str × Var => kv.1.length).foldl max 0) w (tr.mergeSort (fun a b => strLe a.1 b.1))
      Except.ok ("{".toList ++ (if '\n' = '\n' ∨ '\n' = ',' then "\n,".toList else []) ++ join "\n,".toList ss ++ "}".toList)) = _
    rw [hi, if_pos (.inl rfl)]
    rfl
  refine ⟨tr.mergeSort (fun a b => strLe a.1 b.1), (tr.map fun kv : Str × Var => kv.1.length).foldl max 0, hp, ?_, fun lp h => ?_, fun ps h => ?_⟩
  · exact key _ (fun v => "value=".toList ++ tenShow v.value) fun kv _ => rfl
  · refine key _ (fun v => "log_prob=".toList ++ tenShow (lp v)) fun kv hk => ?_
    unfold showRV
    rw [h kv hk]
    rfl
  · refine key _ (fun v => v.dist.name ++ "(dist=".toList ++ v.dist.name ++ "((".toList ++ join ", ".toList ((ps v).map fun p => p.1 ++ "=".toList ++ tenShow p.2) ++ ")".toList) fun kv hk => ?_
    have hs : ∀ l : List (Str × Ten), propsShow "=".toList (l.map fun p => (p.1, some p.2)) = .ok (l.map fun p => p.1 ++ "=".toList ++ tenShow p.2) := fun l => by
      induction l with
      | nil => rfl
      | cons p l ih =>
        rw [List.map_cons, propsShow, ih]
        rfl
    unfold showRV
    rw [h kv hk, hs]
    simp [bind, Except.bind, join]

/-- C90. How a tensor is shown: the type, the sizes in brackets with × between them, a # followed by ∇ if and only if it has a gradient function, and the hash. -/
theorem C90_tensor (t : Ten) :
    tenShow t = t.dtype ++ (match t.size with | [] => "[]".toList | a :: as => "[".toList ++ (toString a).toList ++ (as.flatMap fun x => "×".toList ++ (toString x).toList) ++ "]".toList) ++
      (if t.grad = true then "#∇".toList else "# ".toList) ++ t.hash := by
  have hj : ∀ (as : List Nat) (a : Nat), join "×".toList ((a :: as).map natStr) = (toString a).toList ++ as.flatMap fun x => "×".toList ++ (toString x).toList := by
    intro as
    induction as with
    | nil => intro a; simp [join, natStr]
    | cons x as ih =>
      intro a
      have := ih x
      simp only [List.map_cons] at this ⊢
      rw [join, this, List.flatMap_cons]
      simp [natStr]
  unfold tenShow prettyshape
  cases hs : t.size with
  | nil => cases t.grad <;> simp
  | cons a as =>
    rw [hj]
    cases t.grad <;> simp

/-- C90. Options are only for traces: with any, `ppr` of a random variable raises TypeError. -/
theorem C90_rv_options (rd : List (Str × Str) → Str) (v : Var) (m : Mode) (o : Opts) : pprShow rd (.rv v) m (some o) = .error .type := by
  simp only [pprShow]

/-- C90. Inside lists, dicts and outputs the mode of `ppr` and its options have no effect. -/
theorem C90_mode (rd : List (Str × Str) → Str) (m m' : Mode) (o o' : Option Opts) (xs : List Val) (kvs : List (Str × Val)) (tr : Val) :
    pprShow rd (.list xs) m o = pprShow rd (.list xs) m' o' ∧ pprShow rd (.dict kvs) m o = pprShow rd (.dict kvs) m' o' ∧ pprShow rd (.out tr) m o = pprShow rd (.out tr) m' o' := by
  refine ⟨?_, ?_, ?_⟩ <;> simp only [pprShow]

mutual

/-- All parts of a value that are shown can be shown. -/
def Val.Ok : Val → Prop
  | .ten _ => True
  | .dist d => ∀ p ∈ d.props, p.2 ≠ none
  | .list xs => Val.OkList xs
  | .trace tr => ∀ kv ∈ tr, ∀ p ∈ kv.2.dist.props, p.2 ≠ none
  | .rv v => ∀ p ∈ v.dist.props, p.2 ≠ none
  | .out tr => tr.Ok
  | .dict kvs => Val.OkDict kvs
  | .other _ => True

def Val.OkList : List Val → Prop
  | [] => True
  | x :: xs => x.Ok ∧ Val.OkList xs

def Val.OkDict : List (Str × Val) → Prop
  | [] => True
  | (_, x) :: xs => x.Ok ∧ Val.OkDict xs

end

theorem propsShow_iff (sep : Str) : ∀ ps : List (Str × Option Ten), ((∃ l, propsShow sep ps = .ok l) ↔ ∀ p ∈ ps, p.2 ≠ none) ∧ ((∀ l, propsShow sep ps ≠ .ok l) → propsShow sep ps = .error .type)
  | [] => ⟨⟨fun _ p hp => (by cases hp), fun _ => ⟨[], rfl⟩⟩, fun h => absurd rfl (h [])⟩
  | (p, v) :: ps => by
    obtain ⟨i1, i2⟩ := propsShow_iff sep ps
    cases v with
    | none =>
      refine ⟨⟨fun ⟨l, hl⟩ => (by cases hl), fun h => absurd rfl (h (p, none) (by simp))⟩, fun _ => rfl⟩
    | some t =>
      cases hps : propsShow sep ps with
      | ok l =>
        have e : propsShow sep ((p, some t) :: ps) = .ok ((p ++ sep ++ tenShow t) :: l) := by
          rw [propsShow, hps]
          rfl
        refine ⟨⟨fun _ q hq => ?_, fun _ => ⟨_, e⟩⟩, fun h => absurd e (h _)⟩
        rcases List.mem_cons.1 hq with rfl | hq
        · exact fun h => by cases h
        · exact i1.1 ⟨l, hps⟩ q hq
      | error e =>
        have e' : propsShow sep ((p, some t) :: ps) = .error e := by
          rw [propsShow, hps]
          rfl
        have he : e = .type := by
          have := i2 fun l hl => by rw [hps] at hl; cases hl
          rw [hps] at this
          exact Except.error.inj this
        refine ⟨⟨fun ⟨l, hl⟩ => (by rw [e'] at hl; cases hl), fun h => ?_⟩, fun _ => by rw [e', he]⟩
        obtain ⟨l, hl⟩ := i1.2 fun q hq => h q (by simp [hq])
        rw [hps] at hl
        cases hl

theorem showRV_dv (v : Var) : (∃ s, showRV v ⟨true, false, true⟩ = .ok s) ∧ (∀ p ∈ v.dist.props, p.2 ≠ none) ∨ showRV v ⟨true, false, true⟩ = .error .type ∧ ¬ ∀ p ∈ v.dist.props, p.2 ≠ none := by
  obtain ⟨h1, h2⟩ := propsShow_iff "=".toList v.dist.props
  cases h : propsShow "=".toList v.dist.props with
  | ok l =>
    refine .inl ⟨⟨v.dist.name ++ "(".toList ++ join ", ".toList (["value=".toList ++ tenShow v.value] ++ [] ++
      ["dist=".toList ++ (v.dist.name ++ "(".toList) ++ "(".toList ++ join ", ".toList l ++ ")".toList]), ?_⟩, h1.1 ⟨l, h⟩⟩
    simp only [showRV, h, bind, Except.bind, if_true, Bool.false_eq_true, if_false]
  | error e =>
    have hn : ∀ l, propsShow "=".toList v.dist.props ≠ .ok l := fun l hl => by rw [h] at hl; cases hl
    have he := h2 hn
    refine .inr ⟨?_, fun hall => ?_⟩
    · simp only [showRV, he, bind, Except.bind, if_true, Bool.false_eq_true, if_false]
    · obtain ⟨l, hl⟩ := h1.2 hall
      exact hn l hl

theorem itemsShow_dv (mlen : Nat) : ∀ l : List (Str × Var), (∃ s, itemsShow mlen ⟨true, false, true⟩ l = .ok s) ∧ (∀ kv ∈ l, ∀ p ∈ kv.2.dist.props, p.2 ≠ none) ∨
    itemsShow mlen ⟨true, false, true⟩ l = .error .type ∧ ¬ ∀ kv ∈ l, ∀ p ∈ kv.2.dist.props, p.2 ≠ none
  | [] => .inl ⟨⟨[], rfl⟩, fun _ h => by cases h⟩
  | (k, v) :: l => by
    rcases showRV_dv v with ⟨⟨s, hs⟩, hv⟩ | ⟨hs, hv⟩
    · rcases itemsShow_dv mlen l with ⟨⟨ss, hss⟩, hl⟩ | ⟨hss, hl⟩
      · refine .inl ⟨⟨(padLeft mlen k ++ "-➢".toList ++ s) :: ss, ?_⟩, fun kv hk => ?_⟩
        · rw [itemsShow, hs, hss]
          rfl
        · rcases List.mem_cons.1 hk with rfl | hk
          · exact hv
          · exact hl kv hk
      · refine .inr ⟨?_, fun hall => hl fun kv hk => hall kv (by simp [hk])⟩
        rw [itemsShow, hs, hss]
        rfl
    · refine .inr ⟨?_, fun hall => hv (hall (k, v) (by simp))⟩
      rw [itemsShow, hs]
      rfl

mutual

/-- C90. `ppr` with its default mode shows everything made of tensors, distributions, variables, traces, outputs, lists and dicts, unless a distribution has a parameter that
is no tensor: then, and only then, it raises, namely TypeError. -/
theorem C90_ppr (rd : List (Str × Str) → Str) : ∀ a : Val, (∃ s, pprShow rd a dv none = .ok s) ∧ a.Ok ∨ pprShow rd a dv none = .error .type ∧ ¬ a.Ok
  | .ten t => .inl ⟨⟨tenShow t, by simp only [pprShow]⟩, trivial⟩
  | .other r => .inl ⟨⟨r, by simp only [pprShow]⟩, trivial⟩
  | .dist d => by
    obtain ⟨h1, h2⟩ := propsShow_iff ":".toList d.props
    simp only [pprShow, Val.Ok]
    cases h : propsShow ":".toList d.props with
    | ok l =>
      refine .inl ⟨⟨d.name ++ "(".toList ++ join ", ".toList l ++ ")".toList, ?_⟩, h1.1 ⟨l, h⟩⟩
      simp only [showDist, h, bind, Except.bind]
    | error e =>
      have hn : ∀ l, propsShow ":".toList d.props ≠ .ok l := fun l hl => by rw [h] at hl; cases hl
      refine .inr ⟨?_, fun hall => ?_⟩
      · simp only [showDist, h2 hn, bind, Except.bind]
      · obtain ⟨l, hl⟩ := h1.2 hall
        exact hn l hl
  | .rv v => by
    simp only [pprShow, Val.Ok]
    exact showRV_dv v
  | .trace tr => by
    simp only [pprShow, Val.Ok]
    show (∃ s, showall tr {} ⟨true, false, true⟩ = .ok s) ∧ _ ∨ showall tr {} ⟨true, false, true⟩ = .error .type ∧ _
    by_cases hne : tr = []
    · subst hne
      exact .inl ⟨⟨"Trace{}".toList, rfl⟩, fun _ h => by cases h⟩
    · have hp : (tr.mergeSort (fun a b => strLe a.1 b.1)).Perm tr := List.mergeSort_perm tr _
      have e : showall tr {} ⟨true, false, true⟩ = (do
          let ss ← itemsShow ((tr.map fun kv : Str × Var => kv.1.length).foldl max 0) ⟨true, false, true⟩ (tr.mergeSort (fun a b => strLe a.1 b.1))
          Except.ok ("{".toList ++ (if '\n' = '\n' ∨ '\n' = ',' then "\n,".toList else []) ++ join "\n,".toList ss ++ "}".toList)) := by
        unfold showall
        rw [if_neg (by rw [List.length_eq_zero_iff]; exact hne)]
        rfl
      rw [e]
      rcases itemsShow_dv ((tr.map fun kv => kv.1.length).foldl max 0) (tr.mergeSort (fun a b => strLe a.1 b.1)) with ⟨⟨ss, hs⟩, h⟩ | ⟨hs, h⟩
      · rw [hs]
        exact .inl ⟨⟨_, rfl⟩, fun kv hk => h kv (hp.mem_iff.2 hk)⟩
      · rw [hs]
        exact .inr ⟨rfl, fun hall => h fun kv hk => hall kv (hp.mem_iff.1 hk)⟩
  | .out tr => by
    simp only [pprShow, Val.Ok]
    exact C90_ppr rd tr
  | .list xs => by
    simp only [pprShow, Val.Ok]
    rcases ppr_list rd xs with ⟨⟨ss, hs⟩, h⟩ | ⟨hs, h⟩
    · rw [hs]
      exact .inl ⟨⟨_, rfl⟩, h⟩
    · rw [hs]
      exact .inr ⟨rfl, h⟩
  | .dict kvs => by
    simp only [pprShow, Val.Ok]
    rcases ppr_dict rd kvs with ⟨⟨ss, hs⟩, h⟩ | ⟨hs, h⟩
    · rw [hs]
      exact .inl ⟨⟨_, rfl⟩, h⟩
    · rw [hs]
      exact .inr ⟨rfl, h⟩

theorem ppr_list (rd : List (Str × Str) → Str) : ∀ xs : List Val, (∃ s, pprShowList rd xs = .ok s) ∧ Val.OkList xs ∨ pprShowList rd xs = .error .type ∧ ¬ Val.OkList xs
  | [] => .inl ⟨⟨[], by simp only [pprShowList]⟩, by simp only [Val.OkList]⟩
  | x :: xs => by
    simp only [pprShowList, Val.OkList]
    rcases C90_ppr rd x with ⟨⟨s, hs⟩, h⟩ | ⟨hs, h⟩
    · rcases ppr_list rd xs with ⟨⟨ss, hss⟩, h'⟩ | ⟨hss, h'⟩
      · rw [hs, hss]
        exact .inl ⟨⟨_, rfl⟩, h, h'⟩
      · rw [hs, hss]
        exact .inr ⟨rfl, fun hh => h' hh.2⟩
    · rw [hs]
      exact .inr ⟨rfl, fun hh => h hh.1⟩

theorem ppr_dict (rd : List (Str × Str) → Str) : ∀ xs : List (Str × Val), (∃ s, pprShowDict rd xs = .ok s) ∧ Val.OkDict xs ∨ pprShowDict rd xs = .error .type ∧ ¬ Val.OkDict xs
  | [] => .inl ⟨⟨[], by simp only [pprShowDict]⟩, by simp only [Val.OkDict]⟩
  | (k, x) :: xs => by
    simp only [pprShowDict, Val.OkDict]
    rcases C90_ppr rd x with ⟨⟨s, hs⟩, h⟩ | ⟨hs, h⟩
    · rcases ppr_dict rd xs with ⟨⟨ss, hss⟩, h'⟩ | ⟨hss, h'⟩
      · rw [hs, hss]
        exact .inl ⟨⟨_, rfl⟩, h, h'⟩
      · rw [hs, hss]
        exact .inr ⟨rfl, fun hh => h' hh.2⟩
    · rw [hs]
      exact .inr ⟨rfl, fun hh => h hh.1⟩

end

/-- C90. `autodevice` of a device is that device. A string is taken as it is, whether or not there is such a device. Anything else gives the CPU if CUDA is unavailable or hidden
by an empty CUDA_VISIBLE_DEVICES, and otherwise the device of that number or the current one. -/
theorem C90_autodevice {Dev : Type} (M : Machine Dev) :
    (∀ p d, autodevice M p = .ok d → autodevice M (.dev d) = .ok d) ∧ (∀ s, autodevice M (.str s) = M.device s) ∧
      (M.cuda = false ∨ M.visible = some [] → ∀ n, autodevice M (.int n) = M.device "cpu".toList ∧ autodevice M .none = M.device "cpu".toList) ∧
      (M.cuda = true → M.visible ≠ some [] → ∀ n, autodevice M (.int n) = M.device ("cuda:".toList ++ (toString n).toList) ∧ autodevice M .none = M.device "cuda".toList) := by
  refine ⟨fun p d _ => rfl, fun s => rfl, fun h n => ⟨if_pos h, if_pos h⟩, fun h h' n => ?_⟩
  have : ¬(M.cuda = false ∨ M.visible = some []) := by
    rintro (h1 | h1)
    · rw [h] at h1
      cases h1
    · exact h' h1
  exact ⟨if_neg this, if_neg this⟩

/-- C90. `kw_autodevice` agrees with `autodevice`, except that it rejects devices. -/
theorem C90_kw_autodevice {Dev : Type} (M : Machine Dev) (p : Pref Dev) :
    (∀ d, p = .dev d → kwAutodevice M p = .error .type) ∧ ((∀ d, p ≠ .dev d) → kwAutodevice M p = autodevice M p) := by
  refine ⟨fun d h => by rw [h]; rfl, fun h => ?_⟩
  cases p with
  | dev d => exact absurd rfl (h d)
  | _ => rfl

/-- C90. A mode shows the value if it contains "v" or is "a", and so for the log probability ("p") and the distribution ("d"): "a" alone is "dpv", an "a" among other letters does
nothing, the order and repetition of the letters do not matter, and without a mode nothing of the variable is shown. -/
theorem C90_letters (rd : List (Str × Str) → Str) (v : Var) (tr : List (Str × Var)) (m : Str) :
    let w : What := ⟨decide ('v' ∈ m ∨ m = ['a']), decide ('p' ∈ m ∨ m = ['a']), decide ('d' ∈ m ∨ m = ['a'])⟩
    pprShow rd (.rv v) (some m) none = showRV v w ∧ (∀ o, pprShow rd (.trace tr) (some m) o = showall tr (o.getD {}) w) ∧
      pprShow rd (.rv v) (some ['a']) none = pprShow rd (.rv v) (some ['d', 'p', 'v']) none ∧
      pprShow rd (.rv v) none none = showRV v ⟨false, false, false⟩ := by
  have h : whatOf (some m) = ⟨decide ('v' ∈ m ∨ m = ['a']), decide ('p' ∈ m ∨ m = ['a']), decide ('d' ∈ m ∨ m = ['a'])⟩ := by
    simp only [whatOf, Bool.decide_or, What.mk.injEq]
    refine ⟨?_, ?_, ?_⟩ <;> rw [List.contains_eq_mem] <;> by_cases h : m = ['a'] <;> simp [h]
  refine ⟨?_, fun o => ?_, ?_, ?_⟩
  · simp only [pprShow, h]
  · simp only [pprShow, h]
  · simp only [pprShow]
    rfl
  · simp only [pprShow]
    rfl

/-- A trace of two variables; asked for their log probabilities inside a list, `ppr` shows the values and distributions. -/
example :
    let t : Ten := ⟨"float32".toList, [2, 3], false, "abc".toList⟩
    let v : Var := ⟨t, some t, ⟨"Normal".toList, [("loc".toList, some t)]⟩⟩
    pprShow (fun _ => []) (.list [.rv v]) (some ['p']) none =
      .ok "[Normal(value=float32[2×3]# abc, dist=Normal((loc=float32[2×3]# abc)]".toList ∧
    pprShow (fun _ => []) (.rv v) (some ['p']) none = .ok "log_prob=float32[2×3]# abc".toList ∧
    showall [("aa".toList, v), ("z".toList, v)] { sort := false } ⟨true, false, false⟩ = .ok "{\n,aa-➢value=float32[2×3]# abc\n, z-➢value=float32[2×3]# abc}".toList := by
  refine ⟨?_, ?_, ?_⟩
  · simp only [pprShow, pprShowList]
    decide
  · simp only [pprShow]
    decide
  · decide

end Disp
end Verif
