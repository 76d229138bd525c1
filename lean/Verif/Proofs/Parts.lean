import Verif.Spec.Parts
import Verif.Proofs.Exec
/-
Evaluation commutes with taking a part of all tensors.
-/
namespace Verif.Spec.Part
variable {L L' : Lang} {h : Part L L'}

section
variable {α β γ δ : Type}

theorem ExEq.bind {R : α → β → Prop} {S : γ → δ → Prop} {x : Except Err α} {y : Except Err β} {f : α → Except Err γ} {g : β → Except Err δ}
    (hx : ExEq R x y) (hf : ∀ a b, R a b → ExEq S (f a) (g b)) : ExEq S (x >>= f) (y >>= g) := by
  cases x <;> cases y <;> simp only [ExEq] at hx
  · subst hx; rfl
  · exact hf _ _ hx

theorem ExRel.bind {R : α → β → Prop} {S : γ → δ → Prop} {x : Except Err α} {y : Except Err β} {f : α → Except Err γ} {g : β → Except Err δ}
    (hx : h.ExRel R x y) (hf : ∀ a b, R a b → h.ExRel S (f a) (g b)) : h.ExRel S (x >>= f) (y >>= g) := by
  rcases hx with ⟨hn, rfl⟩ | hx
  · exact Or.inl ⟨hn, rfl⟩
  · cases x <;> cases y <;> simp only [ExEq] at hx
    · subst hx; exact Or.inr rfl
    · exact hf _ _ hx

theorem ExRel.of {R : α → β → Prop} {x : Except Err α} {y : Except Err β} (hx : ExEq R x y) : h.ExRel R x y := Or.inr hx

end

theorem pys_eq (xs : List (PyVal L)) : h.pys xs = xs.map h.py := by
  induction xs with
  | nil => rfl
  | cons x xs ih => simp [pys, ih]

theorem pyKvs_eq (kvs : List (String × PyVal L)) : h.pyKvs kvs = kvs.map fun e => (e.1, h.py e.2) := by
  induction kvs with
  | nil => rfl
  | cons e kvs ih => obtain ⟨k, x⟩ := e; simp [pyKvs, ih]

theorem keys_pyKvs (kvs : List (String × PyVal L)) : keysL (h.pyKvs kvs) = keysL kvs := by
  rw [pyKvs_eq]; simp [keysL, Function.comp_def]

/-! ### Traces -/

/-- The relation of entries in `TrRel`. -/
abbrev EntryRel (h : Part L L') (e : String × RV L) (e' : String × RV L') : Prop := e.1 = e'.1 ∧ h.RVRel e.2 e'.2

theorem entries_get {l : List (String × RV L)} {l' : List (String × RV L')} (hl : List.Forall₂ h.EntryRel l l') (k : String) :
    OptRel h.RVRel (getL l k) (getL l' k) := by
  induction hl with
  | nil => trivial
  | @cons e e' _ _ he _ ih =>
    obtain ⟨a, b⟩ := e
    obtain ⟨a', b'⟩ := e'
    obtain ⟨rfl, he⟩ := he
    simp only [getL]
    split
    · exact he
    · exact ih

theorem entries_insert {l : List (String × RV L)} {l' : List (String × RV L')} (hl : List.Forall₂ h.EntryRel l l') (k : String)
    {rv : RV L} {rv' : RV L'} (hrv : h.RVRel rv rv') : List.Forall₂ h.EntryRel (insertL l k rv) (insertL l' k rv') := by
  induction hl with
  | nil => exact .cons ⟨rfl, hrv⟩ .nil
  | @cons e e' _ _ he ht ih =>
    obtain ⟨a, b⟩ := e
    obtain ⟨a', b'⟩ := e'
    obtain ⟨rfl, he⟩ := he
    simp only [insertL]
    split
    · exact .cons ⟨rfl, hrv⟩ ht
    · exact .cons ⟨rfl, he⟩ ih

theorem entries_keys {l : List (String × RV L)} {l' : List (String × RV L')} (hl : List.Forall₂ h.EntryRel l l') : keysL l = keysL l' := by
  induction hl with
  | nil => rfl
  | cons he _ ih => simp [he.1, ih]

variable {t : Trace L} {t' : Trace L'}

theorem TrRel.empty : h.TrRel Dict.empty Dict.empty := List.Forall₂.nil

theorem TrRel.get (ht : h.TrRel t t') (k : String) : OptRel h.RVRel (t.get? k) (t'.get? k) := entries_get ht k

theorem TrRel.keys (ht : h.TrRel t t') : t.keys = t'.keys := entries_keys ht

theorem TrRel.contains (ht : h.TrRel t t') (k : String) : t.contains k = t'.contains k := by
  have := ht.get k
  unfold Dict.contains
  cases h1 : t.get? k <;> cases h2 : t'.get? k <;> rw [h1, h2] at this <;> simp_all [OptRel]

theorem TrRel.insert (ht : h.TrRel t t') (k : String) {rv : RV L} {rv' : RV L'} (hrv : h.RVRel rv rv') :
    h.TrRel (t.insert k rv) (t'.insert k rv') := entries_insert ht k hrv

theorem TrRel.any (ht : h.TrRel t t') (p : Prov → Bool) : (t.entries.any fun e => p e.2.prov) = t'.entries.any fun e => p e.2.prov := by
  unfold TrRel at ht
  generalize t.entries = l at ht ⊢
  generalize t'.entries = l' at ht ⊢
  induction ht with
  | nil => rfl
  | cons he _ ih => simp [ih, he.2.prov]

theorem TrRel.tau (ht : h.TrRel t t') : tauAddrs t = tauAddrs t' := by
  funext k
  have := ht.get k
  unfold tauAddrs
  cases h1 : t.get? k <;> cases h2 : t'.get? k <;> rw [h1, h2] at this <;> simp only [OptRel] at this ⊢
  · unfold RV.isTau
    rw [RVRel.prov this]

theorem lw_add (a b : LW L.W) : h.lw (a.add b) = (h.lw a).add (h.lw b) := by
  cases a <;> cases b <;> simp [lw, LW.add]

theorem lw_sub (a b : LW L.W) : h.lw (a.sub b) = (h.lw a).sub (h.lw b) := by
  cases a <;> cases b <;> simp [lw, LW.sub]

theorem TrRel.logJoint (ht : h.TrRel t t') (nodes : String → Bool) : h.lw (logJoint t nodes) = Verif.logJoint t' nodes := by
  have key : ∀ acc : LW L.W, h.lw ((t.entries.filter (fun e => nodes e.1)).foldl (fun acc e => acc.add (.tensor e.2.logProb)) acc) =
      (t'.entries.filter (fun e => nodes e.1)).foldl (fun acc e => acc.add (.tensor e.2.logProb)) (h.lw acc) := by
    unfold TrRel at ht
    generalize t.entries = l at ht ⊢
    generalize t'.entries = l' at ht ⊢
    induction ht with
    | nil => intro acc; rfl
    | @cons e e' _ _ he _ ih =>
      intro acc
      simp only [List.filter_cons, ← he.1]
      split
      · rw [List.foldl_cons, List.foldl_cons, ih, lw_add, ← he.2.logProb]
        rfl
      · exact ih acc
  exact key .float0

theorem copyStep_rel (mode : WriteMode) (ex : String → Bool) (ht : h.TrRel t t') {e : String × RV L} {e' : String × RV L'} (he : e.1 = e'.1 ∧ h.RVRel e.2 e'.2) :
    ExEq h.TrRel (copyStep mode ex t e) (copyStep mode ex t' e') := by
  unfold copyStep
  rw [← he.1, ← ht.contains]
  split
  · exact ht
  · split
    · cases mode
      · exact (ht.insert _ he.2).insert _ he.2
      · exact ht
      · rfl
    · exact ht.insert _ he.2

theorem foldlM_rel {A : Type} {B : Type} {a b : Type} {S : A → B → Prop} {R : a → b → Prop} {f : A → a → Except Err A} {g : B → b → Except Err B}
    (hf : ∀ x y u v, S x y → R u v → ExEq S (f x u) (g y v)) {l : List a} {l' : List b} (hl : List.Forall₂ R l l') :
    ∀ x y, S x y → ExEq S (l.foldlM f x) (l'.foldlM g y) := by
  induction hl with
  | nil => intro x y hxy; exact hxy
  | cons he _ ih =>
    intro x y hxy
    rw [List.foldlM_cons, List.foldlM_cons]
    exact (hf _ _ _ _ hxy he).bind ih

theorem copytraces_rel (mode : WriteMode) (ex : String → Bool) {ts : List (Trace L)} {ts' : List (Trace L')} (hts : List.Forall₂ h.TrRel ts ts') :
    ExEq h.TrRel (copytraces mode ex ts) (copytraces mode ex ts') :=
  foldlM_rel (R := h.TrRel) (fun _ _ _ _ hx hu => foldlM_rel (fun _ _ _ _ hx he => copyStep_rel mode ex hx he) hu _ _ hx) hts _ _ TrRel.empty

theorem copytrace1_rel (ht : h.TrRel t t') : ExEq h.TrRel (copytrace1 t) (copytrace1 t') := copytraces_rel _ _ (.cons ht .nil)

theorem mk'_rel (d : L.D) (x : L.V) (p : Prov) (rep : Bool) : h.RVRel (RV.mk' d x p rep) (RV.mk' (h.d d) (h.v x) p rep) :=
  ⟨rfl, rfl, h.logProb d x, rfl, rfl, rfl⟩

theorem rerunRV_rel {rv : RV L} {rv' : RV L'} (hrv : h.RVRel rv rv') : ExEq h.RVRel (rerunRV rv) (rerunRV rv') := by
  obtain ⟨k, v, lp, p, rp, rs⟩ := rv
  obtain ⟨k', v', lp', p', rp', rs'⟩ := rv'
  obtain ⟨hk, hv, hl, hp, hr, hs⟩ := hrv
  simp only at hk hv hl hp hr hs
  subst hv hl hp hr hs
  unfold rerunRV
  cases k <;> cases k' <;> simp only [KindRel] at hk ⊢
  · subst hk
    show h.RVRel _ _
    rw [← h.detachV]
    exact mk'_rel _ _ _ _
  · show h.RVRel _ _
    rw [← h.detachV]
    exact ⟨hk, rfl, hk _, rfl, rfl, rfl⟩
  · rfl

theorem rerunDetached_rel (ht : h.TrRel t t') : ExEq h.TrRel (rerunDetached t) (rerunDetached t') := by
  refine foldlM_rel (S := h.TrRel) ?_ ht _ _ TrRel.empty
  intro x y u v hx hu
  refine (rerunRV_rel hu.2).bind fun a b hab => ?_
  show h.TrRel _ _
  rw [← hu.1]
  exact hx.insert _ hab

theorem disjointKeys_rel {r : Trace L} {r' : Trace L'} (ht : h.TrRel t t') (hr : h.TrRel r r') : disjointKeys t r = disjointKeys t' r' := by
  unfold disjointKeys
  rw [ht.keys, show (fun k => !r.contains k) = fun k => !r'.contains k from funext fun k => by rw [hr.contains]]

/-! ### Statements -/

section
variable {α β γ δ : Type}

theorem Sim.bind {E : α → Prop} {E' : γ → Prop} {R : α → β → Prop} {S : γ → δ → Prop} {m : Comp L α} {m' : Comp L' β} {f : α → Comp L γ} {f' : β → Comp L' δ}
    (hm : h.Sim E R m m') (hE : ∀ a, E a → ∃ c, f a = .ret c ∧ E' c) (hf : ∀ a b, R a b → h.Sim E' S (f a) (f' b)) :
    h.Sim E' S (m.bind f) (m'.bind f') := by
  induction hm with
  | ret a b hab => exact hf a b hab
  | escape a m' ha =>
    obtain ⟨c, hc, hc'⟩ := hE a ha
    rw [Comp.bind_ret, hc]
    exact .escape _ _ hc'
  | draw d rep k k' _ ih => exact .draw _ _ _ _ ih
  | rand k k' _ ih => exact .rand _ _ ih

variable {R : α → β → Prop} {S : γ → δ → Prop}

theorem ExecRel.pure {a : α} {b : β} (hab : R a b) : h.ExecRel R (Exec.pure a) (Exec.pure b) := fun _ _ hw => .ret _ _ ⟨hab, hw⟩

theorem ExecRel.throw (e : Err) : h.ExecRel R (Exec.throw e) (Exec.throw e) := fun _ _ hw => .ret _ _ ⟨rfl, hw⟩

theorem ExecRel.bind {m : Exec L α} {m' : Exec L' β} {f : α → Exec L γ} {f' : β → Exec L' δ} (hm : h.ExecRel R m m')
    (hf : ∀ a b, R a b → h.ExecRel S (f a) (f' b)) : h.ExecRel S (Exec.bind m f) (Exec.bind m' f') := by
  intro w w' hw
  refine (hm w w' hw).bind ?_ ?_
  · rintro ⟨r, w1⟩ ⟨hn, hr⟩
    cases hr
    exact ⟨_, rfl, hn, rfl⟩
  · rintro ⟨r, w1⟩ ⟨r', w1'⟩ ⟨hr, hw1⟩
    cases r <;> cases r' <;> simp only [ExEq] at hr
    · subst hr
      exact .ret _ _ ⟨rfl, hw1⟩
    · exact hf _ _ hr _ _ hw1

theorem ExecRel.lift {x : Except Err α} {y : Except Err β} (hx : h.ExRel R x y) : h.ExecRel R (Exec.lift x) (Exec.lift y) := by
  intro w w' hw
  rcases hx with hx | hx
  · exact .escape _ _ hx
  · exact .ret _ _ ⟨hx, hw⟩

theorem ExecRel.liftComp {m : Comp L (Except Err α)} {m' : Comp L' (Except Err β)} (hm : h.Sim h.Escapes (ExEq R) m m') :
    h.ExecRel R (Exec.liftComp m) (Exec.liftComp m') := by
  intro w w' hw
  refine hm.bind (fun a ha => ⟨_, rfl, ha⟩) fun a b hab => .ret _ _ ⟨hab, hw⟩

theorem ExecRel.getCond (i : ObjId) : h.ExecRel (OptRel h.TrRel) (Exec.getCond i) (Exec.getCond i) := fun _ _ hw => .ret _ _ ⟨hw.cond i, hw⟩

theorem WRel.setCond {w : World L} {w' : World L'} (hw : h.WRel w w') (i : ObjId) {c : Option (Trace L)} {c' : Option (Trace L')}
    (hc : OptRel h.TrRel c c') : h.WRel (w.setCond i c) (w'.setCond i c') where
  cond j := by
    simp only [World.setCond_cond]
    split
    · exact hc
    · exact hw.cond j
  data := hw.data
  hooks := hw.hooks

theorem ExecRel.withSub (i : ObjId) {c : Option (Trace L)} {c' : Option (Trace L')} (hc : OptRel h.TrRel c c') {m : Exec L α} {m' : Exec L' β}
    (hm : h.ExecRel R m m') : h.ExecRel R (Exec.withSub i c m) (Exec.withSub i c' m') := by
  intro w w' hw
  have fin : ∀ (c0 : Option (Trace L)) (c0' : Option (Trace L')), OptRel h.TrRel c0 c0' →
      h.Sim (fun x => h.Escapes x.1) (fun x x' => ExEq R x.1 x'.1 ∧ h.WRel x.2 x'.2)
        ((m (w.setCond i c0)).bind fun (r, w') => .ret (r, w'.setCond i none))
        ((m' (w'.setCond i c0')).bind fun (r, w') => .ret (r, w'.setCond i none)) := by
    intro c0 c0' h0
    refine (hm _ _ (hw.setCond i h0)).bind (fun a ha => ⟨_, rfl, ha⟩) fun a b hab => ?_
    exact .ret _ _ ⟨hab.1, hab.2.setCond i trivial⟩
  cases c <;> cases c' <;> simp only [OptRel] at hc
  · exact fin _ _ trivial
  · unfold Exec.withSub
    rename_i t t'
    have := copytrace1_rel hc
    cases h1 : copytrace1 t <;> cases h2 : copytrace1 t' <;> rw [h1, h2] at this <;> simp only [ExEq] at this
    · subst this
      simp only [h1, h2]
      exact .ret _ _ ⟨rfl, hw⟩
    · simp only [h1, h2]
      exact fin _ _ this

/-! ### The store -/

theorem mapVal_insert (s : Dict (PyVal L)) (k : String) (v : PyVal L) : (s.insert k v).mapVal h.py = (s.mapVal h.py).insert k (h.py v) := by
  apply Dict.ext_get?
  · rw [Dict.keys_mapVal, Dict.keys_insert, Dict.keys_insert, Dict.keys_mapVal]
  · intro j
    rw [Dict.get?_mapVal, Dict.get?_insert, Dict.get?_insert, Dict.get?_mapVal]
    split <;> rfl

/-- Results of store operations. -/
def StoreRel (R : α → β → Prop) (p : Except Err α × Store L) (p' : Except Err β × Store L') : Prop :=
  h.Escapes p.1 ∨ ExEq R p.1 p'.1 ∧ p'.2.data = p.2.data.mapVal h.py ∧ h.HooksRel p.2.hooks p'.2.hooks

theorem ExecRel.onStore {f : Store L → Except Err α × Store L} {f' : Store L' → Except Err β × Store L'}
    (hf : ∀ s s', s'.data = s.data.mapVal h.py → h.HooksRel s.hooks s'.hooks → StoreRel (h := h) R (f s) (f' s')) :
    h.ExecRel R (Exec.onStore f) (Exec.onStore f') := by
  intro w w' hw
  rcases hf w.store w'.store hw.data hw.hooks with he | ⟨h1, h2, h3⟩
  · exact .escape _ _ he
  · exact .ret _ _ ⟨h1, hw.cond, h2, h3⟩

theorem py_none {v : PyVal L} (hv : h.py v = .none) : v = .none := by
  cases v <;> simp_all [py]

theorem getItem_rel (key : String) (s : Store L) (s' : Store L') (hd : s'.data = s.data.mapVal h.py) (hh : h.HooksRel s.hooks s'.hooks) :
    StoreRel (h := h) (fun a b => b = h.py a) (s.getItem key) (s'.getItem key) := by
  unfold Store.getItem
  have h1 := hh.preGet s.data key
  rw [hd]
  generalize s.hooks.preGet s.data key = p at h1
  generalize s'.hooks.preGet (s.data.mapVal h.py) key = p' at h1
  obtain ⟨x, d⟩ := p
  obtain ⟨x', d'⟩ := p'
  rcases h1 with ⟨hn, hx⟩ | ⟨hx, hd'⟩
  · cases hx
    exact Or.inl ⟨hn, rfl⟩
  · simp only at hx hd'
    subst hd'
    cases x <;> cases x' <;> simp only [ExEq] at hx
    · subst hx
      exact Or.inr ⟨rfl, rfl, hh⟩
    · simp only [Dict.get?_mapVal]
      cases hg : d.get? key with
      | none => exact Or.inr ⟨rfl, rfl, hh⟩
      | some v =>
        simp only [Option.map_some]
        have h2 := hh.postGet d key v
        generalize s.hooks.postGet d key v = p at h2
        generalize s'.hooks.postGet (d.mapVal h.py) key (h.py v) = p' at h2
        obtain ⟨y, e⟩ := p
        obtain ⟨y', e'⟩ := p'
        rcases h2 with ⟨hn, hy⟩ | ⟨hy, he⟩
        · cases hy
          exact Or.inl ⟨hn, rfl⟩
        · simp only at hy he
          subst he
          cases y <;> cases y' <;> simp only [ExEq] at hy
          · subst hy
            exact Or.inr ⟨rfl, rfl, hh⟩
          · rename_i a a'
            subst hy
            cases a <;> exact Or.inr ⟨rfl, rfl, hh⟩

theorem setItem_rel (key : String) (v : PyVal L) (s : Store L) (s' : Store L') (hd : s'.data = s.data.mapVal h.py)
    (hh : h.HooksRel s.hooks s'.hooks) : StoreRel (h := h) (fun _ _ => True) (s.setItem key v) (s'.setItem key (h.py v)) := by
  unfold Store.setItem
  have h1 := hh.preSet s.data key v
  rw [hd]
  generalize s.hooks.preSet s.data key v = p at h1
  generalize s'.hooks.preSet (s.data.mapVal h.py) key (h.py v) = p' at h1
  obtain ⟨x, d⟩ := p
  obtain ⟨x', d'⟩ := p'
  rcases h1 with ⟨hn, hx⟩ | ⟨hx, hd'⟩
  · cases hx
    exact Or.inl ⟨hn, rfl⟩
  · simp only at hx hd'
    subst hd'
    cases x <;> cases x' <;> simp only [ExEq] at hx
    · subst hx
      exact Or.inr ⟨rfl, rfl, hh⟩
    · simp only [← mapVal_insert]
      have h2 := hh.postSet (d.insert key v) key v
      generalize s.hooks.postSet (d.insert key v) key v = p at h2
      generalize s'.hooks.postSet ((d.insert key v).mapVal h.py) key (h.py v) = p' at h2
      obtain ⟨y, e⟩ := p
      obtain ⟨y', e'⟩ := p'
      rcases h2 with ⟨hn, hy⟩ | ⟨hy, he⟩
      · cases hy
        exact Or.inl ⟨hn, rfl⟩
      · simp only at hy he
        subst he
        cases y <;> cases y' <;> simp only [ExEq] at hy
        · subst hy
          exact Or.inr ⟨rfl, rfl, hh⟩
        · exact Or.inr ⟨trivial, rfl, hh⟩

theorem resampleUpdate_rel {r : Trace L} {r' : Trace L'} (ht : h.TrRel t t') (hr : h.TrRel r r') (s : Store L) (s' : Store L')
    (hd : s'.data = s.data.mapVal h.py) (hh : h.HooksRel s.hooks s'.hooks) :
    StoreRel (h := h) (fun _ _ => True) (s.resampleUpdate t r) (s'.resampleUpdate t' r') := by
  unfold Store.resampleUpdate
  have h1 := hh.resampleUpdate s.data t t' r r' ht hr
  rw [hd]
  generalize s.hooks.resampleUpdate s.data t r = p at h1
  generalize s'.hooks.resampleUpdate (s.data.mapVal h.py) t' r' = p' at h1
  obtain ⟨x, d⟩ := p
  obtain ⟨x', d'⟩ := p'
  rcases h1 with h1 | ⟨hx, hd'⟩
  · exact Or.inl h1
  · exact Or.inr ⟨hx, hd', hh⟩

/-! ### Programs -/

theorem variableValue_rel {c : Option (Trace L)} {c' : Option (Trace L')} (hc : OptRel h.TrRel c c') (name : String) (value : Option L.V) (prov : Option Prov) :
    (variableValue c name value prov).map (fun x => (h.v x.1, x.2)) = variableValue c' name (value.map h.v) prov := by
  unfold variableValue
  cases value with
  | some v => rfl
  | none =>
    cases c <;> cases c' <;> simp only [OptRel] at hc
    · rfl
    · rename_i t t'
      have := hc.get name
      simp only [Option.map_none]
      cases h1 : t.get? name <;> cases h2 : t'.get? name <;> rw [h1, h2] at this
      · rfl
      · exact this.elim
      · exact this.elim
      · simp only [Option.map_some]
        rw [RVRel.value this]

theorem runModel_rel {c : Option (Trace L)} {c' : Option (Trace L')} (hc : OptRel h.TrRel c c') {T : MTree L} {T' : MTree L'} (hT : h.TreeRel T T') :
    ∀ t t', h.TrRel t t' → h.ExecRel (fun x x' => x'.1 = h.py x.1 ∧ h.TrRel x.2 x'.2) (runModel c T t) (runModel c' T' t') := by
  induction hT with
  | ret o => exact fun t t' ht => ExecRel.pure ⟨rfl, ht⟩
  | raise e => exact fun t t' ht => ExecRel.throw e
  | «variable» name d value prov rep k k' _ ih =>
    intro t t' ht
    unfold runModel
    rw [← ht.contains]
    split
    · exact ExecRel.throw _
    · have hv := variableValue_rel hc name value prov
      cases hx : variableValue c name value prov with
      | none =>
        rw [hx] at hv
        rw [← hv]
        intro w w' hw
        exact .draw _ _ _ _ fun x => ih x _ _ (ht.insert name (mk'_rel _ _ _ _)) _ _ hw
      | some vp =>
        rw [hx] at hv
        rw [← hv]
        exact ih vp.1 _ _ (ht.insert name (mk'_rel _ _ _ _))
  | inject name rv rv' k k' hrv _ ih => exact fun t t' ht => ih _ _ (ht.insert name hrv)
  | getCond k k' _ ih => exact fun t t' ht => ih _ _ hc _ _ ht
  | getTrace k k' _ ih => exact fun t t' ht => ih _ _ ht _ _ ht
  | storeGet key k k' _ ih =>
    intro t t' ht
    unfold runModel
    refine ExecRel.bind (ExecRel.onStore (getItem_rel key)) fun a b hab => ?_
    subst hab
    exact ih a _ _ ht
  | storeSet key v k k' _ ih =>
    intro t t' ht
    unfold runModel
    exact ExecRel.bind (ExecRel.onStore (setItem_rel key v)) fun a b _ => ih _ _ ht
  | sampleFree d rep k k' _ ih =>
    intro t t' ht w w' hw
    exact .draw _ _ _ _ fun x => ih x _ _ ht _ _ hw

theorem weightNodes_rel {c : Option (Trace L)} {c' : Option (Trace L')} (hc : OptRel h.TrRel c c') (ht : h.TrRel t t') : weightNodes c t = weightNodes c' t' := by
  funext k
  unfold weightNodes
  rw [ht.contains, ht.tau]
  cases c <;> cases c' <;> simp only [OptRel] at hc
  · rfl
  · simp only [hc.tau]

theorem programForward_rel {s : ProgSpec L} {s' : ProgSpec L'} (hs : s.sig = s'.sig)
    (hm : ∀ c kwargs, h.TreeRel (s.model c kwargs) (s'.model (h.py c) (h.pyKvs kwargs))) {cond : Option (Trace L)} {cond' : Option (Trace L')}
    (hc : OptRel h.TrRel cond cond') (c sd bd rp : PyVal L) (kwargs : List (String × PyVal L)) :
    h.ExecRel (fun x x' => h.TrRel x.1 x'.1 ∧ x'.2.1 = h.lw x.2.1 ∧ x'.2.2 = h.py x.2.2) (programForward s cond c sd bd rp kwargs)
      (programForward s' cond' (h.py c) (h.py sd) (h.py bd) (h.py rp) (h.pyKvs kwargs)) := by
  have hk : ∀ l : List (String × PyVal L), (h.pyKvs l).filter (fun e => checkPassable e.1 s'.sig) = h.pyKvs (l.filter (fun e => checkPassable e.1 s.sig)) := by
    intro l
    rw [pyKvs_eq, pyKvs_eq, List.filter_map, hs]
    rfl
  have hb : ∀ l : List (String × PyVal L), bindModel s'.sig (h.pyKvs l) = bindModel s.sig l := by
    intro l
    unfold bindModel
    rw [pyKvs_eq, hs, List.any_map]
    rfl
  unfold programForward
  simp only [Exec.bind_eq, Exec.pure_eq]
  have e : ([("sample_dims", h.py sd), ("batch_dim", h.py bd), ("reparameterized", h.py rp)] ++ h.pyKvs kwargs) =
      h.pyKvs ([("sample_dims", sd), ("batch_dim", bd), ("reparameterized", rp)] ++ kwargs) := rfl
  rw [e, hk, hb]
  refine ExecRel.bind (R := fun _ _ => True) (ExecRel.lift (ExRel.of ?_)) fun _ _ _ => ?_
  · cases bindModel s.sig _ <;> simp [ExEq]
  · refine ExecRel.bind (runModel_rel hc (hm _ _) _ _ TrRel.empty) fun a b hab => ?_
    obtain ⟨o, t⟩ := a
    obtain ⟨o', t'⟩ := b
    obtain ⟨h1, h2⟩ := hab
    exact ExecRel.pure ⟨h2, by rw [← weightNodes_rel hc h2, h2.logJoint], h1⟩

/-! ### Combinators -/

theorem OutRel.trace {o : Out L} {o' : Out L'} (ho : h.OutRel o o') : h.TrRel o.trace o'.trace := by cases ho; assumption
theorem OutRel.logWeight {o : Out L} {o' : Out L'} (ho : h.OutRel o o') : o'.logWeight = h.lw o.logWeight := by cases ho; rfl
theorem OutRel.output {o : Out L} {o' : Out L'} (ho : h.OutRel o o') : o'.output = h.py o.output := by cases ho; rfl
theorem OutRel.type {o : Out L} {o' : Out L'} (ho : h.OutRel o o') : o'.type = o.type := by cases ho; rfl
theorem OutRel.loss {o : Out L} {o' : Out L'} (ho : h.OutRel o o') : OptRel h.lo o.loss o'.loss := by cases ho; assumption
theorem OutRel.marginal {o : Out L} {o' : Out L'} (ho : h.OutRel o o') : o'.marginal = o.marginal.map fun m => (m.1, h.py m.2) := by cases ho; rfl
theorem OutRel.subs {o : Out L} {o' : Out L'} (ho : h.OutRel o o') : h.SubsRel o.subs o'.subs := by cases ho; assumption

theorem OutRel.setSubs {o : Out L} {o' : Out L'} (ho : h.OutRel o o') {s s'} (hs : h.SubsRel s s') : h.OutRel (o.setSubs s) (o'.setSubs s') := by
  cases ho
  exact .mk _ _ _ _ _ _ _ _ _ _ _ _ _ ‹_› ‹_› ‹_› hs

theorem SubsRel.get {s : List (String × Out L)} {s' : List (String × Out L')} (hs : h.SubsRel s s') (k : String) : OptRel h.OutRel (getL s k) (getL s' k) := by
  induction s generalizing s' with
  | nil => cases hs; trivial
  | cons e s ih =>
    cases hs with
    | cons k' o o' s _ ho hs =>
      simp only [getL]
      split
      · exact ho
      · exact ih hs

theorem pickIx_rel (a b : PyVal L) : h.py (pickIx a b) = pickIx (h.py a) (h.py b) := by
  cases a <;> rfl

theorem childKw_rel {a : Attrs L} {a' : Attrs L'} (ha : h.AttrsRel a a') (kw : Kw L) : childKw a' (h.kw kw) = h.kw (childKw a kw) := by
  unfold childKw Part.kw
  simp only [pickIx_rel, ha.ix]

theorem foldLoss_rel {a : Attrs L} {a' : Attrs L'} (ha : h.AttrsRel a a') {o s : Out L} {o' s' : Out L'} (ho : h.OutRel o o') (hs : h.OutRel s s') :
    h.ExRel h.OutRel (foldLoss a o s) (foldLoss a' o' s') := by
  have hl : h.lo (s.loss.getD a.loss0) (s'.loss.getD a'.loss0) := by
    have := hs.loss
    cases h1 : s.loss <;> cases h2 : s'.loss <;> rw [h1, h2] at this <;> simp only [OptRel] at this
    · exact ha.loss0
    · exact this
  unfold foldLoss
  rcases ha.lossFn _ _ _ _ ho hl with ⟨hn, he⟩ | he
  · rw [he]
    exact Or.inl ⟨hn, rfl⟩
  · generalize a.lossFn o (s.loss.getD a.loss0) = x at he
    generalize a'.lossFn o' (s'.loss.getD a'.loss0) = x' at he
    cases x <;> cases x' <;> simp only [ExEq] at he
    · subst he; exact Or.inr rfl
    · refine Or.inr ?_
      cases ho
      exact .mk _ _ _ _ _ _ _ _ _ _ _ _ _ ‹_› he ‹_› ‹_›

theorem resampleOutput_rel (c : PyVal L) (ht : h.TrRel t t') : ExEq (fun a b => b = h.py a) (resampleOutput c t) (resampleOutput (h.py c) t') := by
  cases c
  case dict kvs =>
    unfold resampleOutput
    simp only [py]
    have e : (h.pyKvs kvs).any (fun e => t'.contains e.1 && !isTensor e.2) = kvs.any (fun e => t.contains e.1 && !isTensor e.2) := by
      rw [pyKvs_eq, List.any_map]
      congr 1
      funext e
      simp only [Function.comp, ht.contains]
      congr 2
      cases e.2 <;> rfl
    rw [e]
    split
    · rfl
    · show PyVal.dict _ = PyVal.dict _
      rw [pyKvs_eq, pyKvs_eq, List.map_map, List.map_map]
      congr 1
      refine List.map_congr_left fun e _ => ?_
      simp only [Function.comp, Prod.mk.injEq, true_and]
      unfold resampleEntry
      have := ht.get e.1
      cases h1 : t.get? e.1 <;> cases h2 : t'.get? e.1 <;> rw [h1, h2] at this <;> simp only [OptRel] at this
      · simp only [py]
        rw [this.value]
  all_goals rfl

theorem resampleRest_rel {a : Attrs L} {a' : Attrs L'} (ha : h.AttrsRel a a') {dims} {r : ResamplerFn L} {r' : ResamplerFn L'} (hr : h.ResRel dims r r')
    (kw : Kw L) (hd : dims kw.sampleDims kw.batchDim) {q : Out L} {q' : Out L'} (hq : h.OutRel q q') :
    h.ExecRel h.OutRel (resampleRest a r kw q) (resampleRest a' r' (h.kw kw) q') := by
  unfold resampleRest
  simp only [Exec.bind_eq, Exec.pure_eq]
  refine ExecRel.bind (ExecRel.liftComp (R := fun x x' => h.TrRel x.1 x'.1 ∧ h.lw x.2 = x'.2) (by rw [hq.logWeight]; exact hr _ _ hd _ _ _ hq.trace)) ?_
  rintro ⟨tr2, lw2⟩ ⟨tr2', lw2'⟩ ⟨h1, h2⟩
  simp only at h1 h2
  subst h2
  rw [hq.output]
  refine ExecRel.bind (ExecRel.lift (ExRel.of (resampleOutput_rel _ h1))) fun c2 c2' h2 => ?_
  subst h2
  refine ExecRel.bind (ExecRel.onStore (resampleUpdate_rel hq.trace h1)) fun _ _ _ => ?_
  refine ExecRel.bind (ExecRel.lift (foldLoss_rel ha ?_ hq)) fun o o' ho => ?_
  · rw [show pickIx a'.ix (h.kw kw).ix = h.py (pickIx a.ix kw.ix) from by rw [pickIx_rel, ha.ix]; rfl]
    exact .mk _ _ _ _ _ (some _) _ _ none none none _ _ h1 trivial trivial .nil
  · refine ExecRel.pure ?_
    rw [show ((h.kw kw).debug || a'.debug) = (kw.debug || a.debug) from by rw [ha.debug]; rfl]
    split
    · exact ho.setSubs (.cons _ _ _ _ _ hq .nil)
    · exact ho

theorem extendCheckF_rel {c : Option (Trace L)} {c' : Option (Trace L')} (hc : OptRel h.TrRel c c') {f : Out L} {f' : Out L'} (hf : h.OutRel f f') :
    h.ExRel (fun _ _ => True) (extendCheckF c f) (extendCheckF c' f') := by
  unfold extendCheckF
  cases c <;> cases c' <;> simp only [OptRel] at hc
  · simp only
    rw [hf.logWeight]
    have any := hf.trace.any (fun p => p == .observed || p == .reused)
    rw [← any]
    have hz : zeroWeight f.logWeight = true → zeroWeight (h.lw f.logWeight) = true := by
      cases f.logWeight with
      | float0 => exact id
      | tensor x => exact h.isZero x
    have hz' : h.exact → zeroWeight (h.lw f.logWeight) = true → zeroWeight f.logWeight = true := by
      intro he
      cases f.logWeight with
      | float0 => exact id
      | tensor x => exact h.isZero_exact he x
    by_cases hzero : zeroWeight f.logWeight = true
    · rw [hzero, hz hzero]
      simp only [Bool.not_true, Bool.false_eq_true, if_false]
      split
      · exact Or.inr rfl
      · exact Or.inr trivial
    · have hz0 : zeroWeight f.logWeight = false := by simpa using hzero
      by_cases he : h.exact
      · have : zeroWeight (h.lw f.logWeight) = false := by
          rw [← Bool.not_eq_true]; exact fun e => hzero (hz' he e)
        rw [this, hz0]
        exact Or.inr rfl
      · rw [hz0]
        exact Or.inl ⟨he, rfl⟩
  · simp only
    have any := hf.trace.any (fun p => p == .observed)
    rw [← any]
    split
    · exact Or.inr rfl
    · exact Or.inr trivial

theorem extendRest_rel {a : Attrs L} {a' : Attrs L'} (ha : h.AttrsRel a a') (kw : Kw L) {c : Option (Trace L)} {c' : Option (Trace L')}
    (hc : OptRel h.TrRel c c') {p f : Out L} {p' f' : Out L'} (hp : h.OutRel p p') (hf : h.OutRel f f') :
    h.ExRel h.OutRel (extendRest a kw c p f) (extendRest a' (h.kw kw) c' p' f') := by
  unfold extendRest
  refine ExRel.bind (extendCheckF_rel hc hf) fun _ _ _ => ?_
  rw [disjointKeys_rel hf.trace hp.trace]
  cases disjointKeys f'.trace p'.trace
  · exact Or.inr rfl
  · refine ExRel.bind (R := h.TrRel) (ExRel.of (copytraces_rel _ _ (.cons hp.trace (.cons hf.trace .nil)))) fun tr tr' htr => ?_
    refine ExRel.bind (foldLoss_rel ha ?_ hp) fun o o' ho => ?_
    · rw [show pickIx a'.ix (h.kw kw).ix = h.py (pickIx a.ix kw.ix) from by rw [pickIx_rel, ha.ix]; rfl, hp.logWeight, hf.output, hp.output,
        ← hp.trace.keys, ← hf.trace.tau, ← hf.trace.logJoint, ← lw_add]
      exact .mk _ _ _ _ _ (some _) _ _ (some _) none none _ _ htr trivial trivial .nil
    · refine Or.inr ?_
      show h.OutRel _ _
      rw [show ((h.kw kw).debug || a'.debug) = (kw.debug || a.debug) from by rw [ha.debug]; rfl]
      split
      · exact ho.setSubs (.cons _ _ _ _ _ hp (.cons _ _ _ _ _ hf .nil))
      · exact ho

theorem composeRest_rel {a : Attrs L} {a' : Attrs L'} (ha : h.AttrsRel a a') (kw : Kw L) {q1 q2 : Out L} {q1' q2' : Out L'} (h1 : h.OutRel q1 q1')
    (h2 : h.OutRel q2 q2') : h.ExRel h.OutRel (composeRest a kw q1 q2) (composeRest a' (h.kw kw) q1' q2') := by
  unfold composeRest
  refine ExRel.bind (R := h.TrRel) (ExRel.of (copytraces_rel _ _ (.cons h2.trace (.cons h1.trace .nil)))) fun tr tr' htr => ?_
  rw [disjointKeys_rel h2.trace h1.trace]
  cases disjointKeys q2'.trace q1'.trace
  · exact Or.inr rfl
  · refine ExRel.bind (R := h.OutRel) (foldLoss_rel ha ?_ h1) fun o o' ho => ?_
    · rw [show pickIx a'.ix (h.kw kw).ix = h.py (pickIx a.ix kw.ix) from by rw [pickIx_rel, ha.ix]; rfl, h1.logWeight, h2.logWeight, h2.output, ← lw_add]
      exact .mk _ _ _ _ _ (some _) _ _ none none none _ _ htr trivial trivial .nil
    · refine Or.inr ?_
      show h.OutRel _ _
      rw [show ((h.kw kw).debug || a'.debug) = (kw.debug || a.debug) from by rw [ha.debug]; rfl]
      split
      · exact ho.setSubs (.cons _ _ _ _ _ h1 (.cons _ _ _ _ _ h2 .nil))
      · exact ho

theorem NodeRel.id {dims} {N : Node L} {N' : Node L'} (hN : h.NodeRel dims N N') : N'.id = N.id := by
  cases hN <;> first | rfl | exact (AttrsRel.id ‹_›).symm

theorem NodeRel.debugAttr {dims} {N : Node L} {N' : Node L'} (hN : h.NodeRel dims N N') : N'.debugAttr = N.debugAttr := by
  cases hN <;> first | exact Eq.symm ‹_› | exact congrArg some (AttrsRel.debug ‹_›).symm

theorem NodeRel.isExtend {dims} {N : Node L} {N' : Node L'} (hN : h.NodeRel dims N N') : N'.isExtend = N.isExtend := by
  cases hN <;> rfl

theorem marginalize_rel {dims} {N : Node L} {N' : Node L'} (hN : h.NodeRel dims N N') {p : Out L} {p' : Out L'} (hp : h.OutRel p p') :
    ExEq (fun x x' => x'.1 = h.py x.1 ∧ h.TrRel x.2 x'.2) (marginalize N p) (marginalize N' p') := by
  unfold marginalize
  rw [hN.isExtend, hp.marginal, hp.output]
  split
  · cases p.marginal with
    | none => rfl
    | some m =>
      obtain ⟨keys, mo⟩ := m
      simp only [Option.map_some]
      rw [show (fun k => p'.trace.contains k && !keys.contains k) = fun k => p.trace.contains k && !keys.contains k from funext fun k => by rw [hp.trace.contains]]
      exact (copytraces_rel _ _ (.cons hp.trace .nil)).bind fun a b hab => ⟨rfl, hab⟩
  · exact ⟨rfl, hp.trace⟩

theorem detachOutput_rel (m : PyVal L) : detachOutput (h.py m) = h.py (detachOutput m) := by
  cases m
  case tensor v => simp only [py, detachOutput, h.detachV]
  case dict kvs =>
    simp only [py, detachOutput]
    congr 1
    rw [pyKvs_eq, pyKvs_eq, List.map_map, List.map_map]
    refine List.map_congr_left fun e _ => ?_
    obtain ⟨k, x⟩ := e
    cases x <;> simp [py, h.detachV]
  all_goals rfl

theorem detachLW_rel (x : LW L.W) : ExEq (fun a b => b = h.lw a) (detachLW x) (detachLW (h.lw x)) := by
  cases x with
  | float0 => rfl
  | tensor w => show LW.tensor _ = LW.tensor _; rw [h.detachW]

theorem incomingLw_rel (x : LW L.W) : incomingLw (h.lw x) = h.w (incomingLw x) := by
  cases x with
  | float0 => exact (map_zero h.w).symm
  | tensor w => exact (h.detachW w).symm

theorem forwardTrace_rel {dims} {N : Node L} {N' : Node L'} (hN : h.NodeRel dims N N') {q : Out L} {q' : Out L'} (hq : h.OutRel q q') :
    ExEq (OptRel h.TrRel) (forwardTrace N q) (forwardTrace N' q') := by
  unfold forwardTrace
  rw [hN.debugAttr, hq.type]
  cases N.debugAttr with
  | none => rfl
  | some b =>
    cases b with
    | false => trivial
    | true =>
      simp only
      split
      · have := hq.subs.get "q2_out"
        cases h1 : getL q.subs "q2_out" <;> cases h2 : getL q'.subs "q2_out" <;> rw [h1, h2] at this <;> simp only [OptRel] at this
        · rfl
        · exact this.trace
      · trivial

theorem proposeNodes_rel {r : Trace L} {r' : Trace L'} (ht : h.TrRel t t') (hr : h.TrRel r r') : proposeNodes t r = proposeNodes t' r' := by
  funext k
  unfold proposeNodes
  rw [ht.contains, ht.tau, hr.tau]

theorem proposeRest_rel {a : Attrs L} {a' : Attrs L'} (ha : h.AttrsRel a a') {tr : Trace L → Kw L → Except Err (Trace L)}
    {tr' : Trace L' → Kw L' → Except Err (Trace L')} (htr : ∀ t t' kw, h.TrRel t t' → h.ExRel h.TrRel (tr t kw) (tr' t' (h.kw kw))) (nr : Bool) {dims}
    {P Q : Node L} {P' Q' : Node L'} (hP : h.NodeRel dims P P') (hQ : h.NodeRel dims Q Q') (kw : Kw L) {q p : Out L} {q' p' : Out L'} (hq : h.OutRel q q')
    (hp : h.OutRel p p') : h.ExRel h.OutRel (proposeRest a tr nr P Q kw q p) (proposeRest a' tr' nr P' Q' (h.kw kw) q' p') := by
  unfold proposeRest
  simp only
  rw [← proposeNodes_rel hq.trace hp.trace, hq.logWeight, hp.logWeight, childKw_rel ha]
  refine ExRel.bind (R := h.TrRel) (htr _ _ _ hq.trace) fun qt qt' hqt => ?_
  rw [← hqt.logJoint, ← lw_sub, ← lw_add]
  refine ExRel.bind (ExRel.of (marginalize_rel hP hp)) fun m m' hm => ?_
  obtain ⟨mo, mt⟩ := m
  obtain ⟨mo', mt'⟩ := m'
  obtain ⟨hm1, hm2⟩ := hm
  simp only at hm1 hm2
  subst hm1
  refine ExRel.bind (R := h.TrRel) (ExRel.of ?_) fun t1 t1' ht1 => ?_
  · cases nr
    · exact rerunDetached_rel hm2
    · exact hm2
  refine ExRel.bind (ExRel.of (detachLW_rel _)) fun lw lw' hlw => ?_
  subst hlw
  refine ExRel.bind (R := h.TrRel) (ExRel.of (copytrace1_rel hq.trace)) fun t2 t2' ht2 => ?_
  refine ExRel.bind (R := h.TrRel) (ExRel.of (copytrace1_rel hp.trace)) fun t3 t3' ht3 => ?_
  refine ExRel.bind (ExRel.of (forwardTrace_rel hQ hq)) fun fw fw' hfw => ?_
  refine ExRel.bind (R := h.OutRel) (foldLoss_rel ha ?_ hq) fun o o' ho => ?_
  · rw [show pickIx a'.ix (h.kw kw).ix = h.py (pickIx a.ix kw.ix) from by rw [pickIx_rel, ha.ix]; rfl, detachOutput_rel, incomingLw_rel, ← hq.trace.keys]
    exact .mk _ _ _ _ _ (some _) _ _ none (some _) (some _) _ _ ht1 trivial ⟨rfl, rfl, rfl, ht2, ht3, hfw⟩ .nil
  · refine Or.inr ?_
    show h.OutRel _ _
    rw [show ((h.kw kw).debug || a'.debug) = (kw.debug || a.debug) from by rw [ha.debug]; rfl]
    split
    · exact ho.setSubs (.cons _ _ _ _ _ hq (.cons _ _ _ _ _ hp .nil))
    · exact ho

theorem eval_rel {dims} {N : Node L} {N' : Node L'} (hN : h.NodeRel dims N N') : ∀ (c : PyVal L) (kw : Kw L), dims kw.sampleDims kw.batchDim →
    h.ExecRel h.OutRel (eval N c kw) (eval N' (h.py c) (h.kw kw)) := by
  induction hN with
  | prog i s s' hname hsig hdbg hm =>
    intro c kw _
    simp only [eval, Exec.bind_eq, Exec.pure_eq]
    refine ExecRel.bind (ExecRel.getCond i) fun cond cond' hc => ?_
    refine ExecRel.bind (programForward_rel hsig hm hc c _ _ _ _) ?_
    rintro ⟨t, lw, o⟩ ⟨t', lw', o'⟩ ⟨h1, h2, h3⟩
    simp only at h1 h2 h3
    subst h2 h3
    refine ExecRel.pure ?_
    rw [← hname]
    exact .mk _ _ _ _ _ none _ _ none none none _ _ h1 trivial trivial .nil
  | resample a a' r r' q q' ha hr hq ihq =>
    intro c kw hd
    simp only [eval, Exec.bind_eq]
    rw [childKw_rel ha]
    exact ExecRel.bind (ihq c _ hd) fun o o' ho => resampleRest_rel ha hr kw hd ho
  | extend a a' p p' f f' ha hp hf ihp ihf =>
    intro c kw hd
    simp only [eval, Exec.bind_eq, Exec.pure_eq, dispatchKw_node]
    rw [childKw_rel ha, hp.id, hf.id, ← ha.id]
    refine ExecRel.bind (ExecRel.getCond _) fun cond cond' hc => ?_
    refine ExecRel.bind (R := fun x x' => h.OutRel x.1 x'.1 ∧ h.OutRel x.2 x'.2) (ExecRel.withSub _ hc ?_) ?_
    · refine ExecRel.bind (ExecRel.getCond _) fun cond1 cond1' hc1 => ExecRel.withSub _ hc1 ?_
      refine ExecRel.bind (ihp c _ hd) fun o o' ho => ?_
      rw [ho.output]
      exact ExecRel.bind (ihf _ _ hd) fun o1 o1' ho1 => ExecRel.pure ⟨ho, ho1⟩
    · rintro ⟨o, o1⟩ ⟨o', o1'⟩ ⟨h1, h2⟩
      exact ExecRel.bind (ExecRel.getCond _) fun cond2 cond2' hc2 => ExecRel.lift (extendRest_rel ha kw hc2 h1 h2)
  | compose a a' q2 q2' q1 q1' ha h2 h1 ih2 ih1 =>
    intro c kw hd
    simp only [eval, Exec.bind_eq, dispatchKw_node]
    rw [childKw_rel ha]
    refine ExecRel.bind (ih1 c _ hd) fun o o' ho => ?_
    rw [ho.output]
    exact ExecRel.bind (ih2 _ _ hd) fun o1 o1' ho1 => ExecRel.lift (composeRest_rel ha kw ho ho1)
  | propose a a' tr tr' nr p p' q q' ha hp hq htr ihp ihq =>
    intro c kw hd
    simp only [eval, Exec.bind_eq, dispatchKw_node]
    rw [childKw_rel ha, hp.id]
    refine ExecRel.bind (ihq c _ hd) fun o o' ho => ?_
    refine ExecRel.bind (ExecRel.withSub _ (c := some _) (c' := some _) ho.trace (ihp c _ hd)) fun o1 o1' ho1 => ?_
    exact ExecRel.lift (proposeRest_rel ha htr nr hp hq kw ho ho1)

end
end Verif.Spec.Part
