import Verif.Model.Adam
import Mathlib.Data.List.Dedup
import Mathlib.Data.List.Range
import Mathlib.Data.List.Perm.Basic
/-
C74: what the optimisers of the experiments train.
-/
namespace Verif

/-- Two modules share a parameter. -/
def Spec.Share (a b : Mod) : Prop := ∃ p, p ∈ a.flat ∧ p ∈ b.flat

theorem mem_parameters (m : Mod) (p : Nat) : p ∈ m.parameters ↔ p ∈ m.flat := by simp [Mod.parameters]

theorem parameters_nodup (m : Mod) : m.parameters.Nodup := by
  simp only [Mod.parameters, List.nodup_reverse]
  exact List.nodup_dedup _

open Classical in
theorem addParamGroups_ok (gs acc : List (List Nat)) :
    addParamGroups acc gs = if (∀ g ∈ gs, ∀ h ∈ acc, g.Disjoint h) ∧ gs.Pairwise List.Disjoint then .ok (acc ++ gs) else .error .value := by
  induction gs generalizing acc with
  | nil => simp [addParamGroups]
  | cons g gs ih =>
    have hb : (g.any fun p => acc.any fun h => h.contains p) = true ↔ ¬ ∀ h ∈ acc, g.Disjoint h := by
      simp only [List.any_eq_true, List.contains_iff_mem]
      constructor
      · rintro ⟨p, h1, h, h2, h3⟩ hd
        exact hd h h2 h1 h3
      · intro h
        push Not at h
        obtain ⟨h, h1, h2⟩ := h
        simp only [List.Disjoint] at h2
        push Not at h2
        obtain ⟨p, h3, h4, -⟩ := h2
        exact ⟨p, h3, h, h1, h4⟩
    rw [addParamGroups]
    by_cases hc : ∀ h ∈ acc, g.Disjoint h
    · rw [if_neg (by rw [hb]; exact fun h => h hc), ih]
      refine if_congr ?_ (by simp) rfl
      constructor
      · rintro ⟨h1, h2⟩
        refine ⟨fun g' hg' h hh => ?_, List.pairwise_cons.2 ⟨fun g' hg' => (h1 g' hg' g (by simp)).symm, h2⟩⟩
        rcases List.mem_cons.1 hg' with rfl | hg'
        · exact hc h hh
        · exact h1 g' hg' h (by simp [hh])
      · rintro ⟨h1, h2⟩
        rw [List.pairwise_cons] at h2
        refine ⟨fun g' hg' h hh => ?_, h2.2⟩
        rcases List.mem_append.1 hh with hh | hh
        · exact h1 g' (by simp [hg']) h hh
        · rw [List.mem_singleton] at hh
          subst hh
          exact (h2.1 g' hg').symm
    · rw [if_pos (hb.2 hc), if_neg]
      rintro ⟨h1, -⟩
      exact hc (h1 g (by simp))

theorem mapM_modules (ms : List Mod) : (ms.map Trainable.module).mapM Trainable.parameters = .ok (ms.map Mod.parameters) := by
  induction ms with
  | nil => rfl
  | cons m ms ih =>
    rw [List.map_cons, List.mapM_cons, ih]
    rfl

open Classical in
theorem adam_modules (ms : List Mod) (hne : ms ≠ []) :
    adam (ms.map .module) = if ms.Pairwise (fun a b => ¬ Spec.Share a b) then .ok (ms.map Mod.parameters) else .error .value := by
  have hd : (ms.map Mod.parameters).Pairwise List.Disjoint ↔ ms.Pairwise fun a b => ¬ Spec.Share a b := by
    rw [List.pairwise_map]
    refine List.Pairwise.iff fun {a b} => ?_
    simp only [List.Disjoint, mem_parameters, Spec.Share]
    exact ⟨fun h ⟨p, h1, h2⟩ => h h1 h2, fun h p h1 h2 => h ⟨p, h1, h2⟩⟩
  unfold adam
  rw [mapM_modules]
  cases ms with
  | nil => exact absurd rfl hne
  | cons m ms =>
    simp only [List.map_cons] at hd ⊢
    rw [addParamGroups_ok]
    refine if_congr ?_ (by simp) rfl
    rw [← hd]
    simp

/-- C74. `adam` on a list of things: AttributeError if one of them is no module (a combinator, say); ValueError if the list is empty or two entries share a
parameter, for instance because one is registered inside the other or the same module is listed twice; otherwise an optimiser with one group per module, which has each parameter
below that module once, so that every parameter is in exactly one place. -/
theorem C74_adam (xs : List Trainable) :
    (.other ∈ xs → adam xs = .error .attribute) ∧
    (∀ ms : List Mod, xs = ms.map .module →
      (adam xs = .error .value ∧ (ms = [] ∨ ∃ i j, ∃ (h : i < j) (hj : j < ms.length), Spec.Share ms[i] ms[j])) ∨
      ∃ gs, adam xs = .ok gs ∧ ms ≠ [] ∧ (∀ i j, ∀ (h : i < j) (hj : j < ms.length), ¬ Spec.Share ms[i] ms[j]) ∧
        gs.length = ms.length ∧ (∀ (i : Nat) m g, ms[i]? = some m → gs[i]? = some g → ∀ p, p ∈ g ↔ p ∈ m.flat) ∧ gs.flatten.Nodup) := by
  constructor
  · intro h
    have : xs.mapM Trainable.parameters = .error .attribute := by
      induction xs with
      | nil => simp at h
      | cons x xs ih =>
        rw [List.mapM_cons]
        cases x with
        | other => rfl
        | module m =>
          rw [ih (by simpa using h)]
          rfl
    rw [adam, this]
  · rintro ms rfl
    by_cases hne : ms = []
    · subst hne
      exact Or.inl ⟨rfl, Or.inl rfl⟩
    rw [adam_modules ms hne]
    by_cases hp : ms.Pairwise fun a b => ¬ Spec.Share a b
    · right
      rw [if_pos hp]
      refine ⟨_, rfl, hne, ?_, by simp, ?_, ?_⟩
      · intro i j h hj
        exact List.pairwise_iff_getElem.1 hp i j (by omega) hj h
      · intro i m g h1 h2
        rw [List.getElem?_map, h1] at h2
        cases h2
        exact mem_parameters m
      · rw [List.nodup_flatten]
        refine ⟨?_, ?_⟩
        · simp only [List.mem_map]
          rintro _ ⟨m, -, rfl⟩
          exact parameters_nodup m
        · rw [List.pairwise_map]
          refine hp.imp fun {a b} h => ?_
          intro p h1 h2
          exact h ⟨p, (mem_parameters a p).1 h1, (mem_parameters b p).1 h2⟩
    · left
      rw [if_neg hp]
      refine ⟨rfl, Or.inr ?_⟩
      rw [List.pairwise_iff_getElem] at hp
      push Not at hp
      obtain ⟨i, j, hi, hj, h, hs⟩ := hp
      exact ⟨i, j, h, hj, hs⟩

/-- C74. nvi_train's optimiser on what `paper_model` makes (two or more targets): creating it does not raise, and it trains exactly the weights and biases of the
kernels' networks (six tensors for each of the 2(n-1) kernels) and, with `optimize_path`, one logit for each of the n-2 intermediate targets. The first and the
last target and, without `optimize_path`, the whole path have nothing to train. -/
theorem C74_paper (num : Nat) (h : 2 ≤ num) (optimize : Bool) :
    ∃ targets kernels, adam ((paperMods num optimize).map .module) = .ok (targets ++ kernels) ∧
      targets = [[]] ++ (List.range (num - 2)).map (fun k => if optimize then [k] else []) ++ [[]] ∧
      kernels.length = 2 * (num - 1) ∧ (∀ g ∈ kernels, g.length = 6) ∧ (targets ++ kernels).flatten.Nodup ∧
      (targets ++ kernels).flatten.length = 12 * (num - 1) + if optimize then num - 2 else 0 := by
  have hk : ∀ n, (kernelMod n).parameters = [n, n + 1, n + 2, n + 3, n + 4, n + 5] := by
    intro n
    have : (kernelMod n).flat = [n, n + 1, n + 2, n + 3, n + 4, n + 5] := rfl
    rw [Mod.parameters, this, List.dedup_eq_self.2, List.reverse_reverse]
    simp
  have ht : ∀ n, (temperedMod optimize n fixedMod fixedMod).parameters = if optimize then [n] else [] := by
    intro n
    cases optimize <;> rfl
  have hkl : ∀ n, (kernelMod n).flat = [n, n + 1, n + 2, n + 3, n + 4, n + 5] := fun _ => rfl
  have htl : ∀ n, (temperedMod optimize n fixedMod fixedMod).flat = if optimize then [n] else [] := by
    intro n
    cases optimize <;> rfl
  have hg : (paperMods num optimize).map Mod.parameters = ([[]] ++ (List.range (num - 2)).map (fun k => if optimize then [k] else []) ++ [[]]) ++
      ((List.range (num - 1)).map (fun k => (kernelMod (num + 6 * k)).parameters) ++
        (List.range (num - 1)).map fun k => (kernelMod (num + 6 * (num - 1) + 6 * k)).parameters) := by
    simp [paperMods, pathMods, Function.comp_def, ht, show fixedMod.parameters = [] from rfl]
  have hp : (paperMods num optimize).Pairwise fun a b => ¬ Spec.Share a b := by
    have mk : ∀ {n p}, p ∈ (kernelMod n).flat → n ≤ p ∧ p < n + 6 := by
      intro n p hp
      rw [hkl] at hp
      simp only [List.mem_cons, List.not_mem_nil, or_false] at hp
      omega
    have mt : ∀ {n p}, p ∈ (temperedMod optimize n fixedMod fixedMod).flat → p = n := by
      intro n p hp
      rw [htl] at hp
      split at hp
      · simpa using hp
      · simp at hp
    have mf : ∀ {p}, p ∈ fixedMod.flat → False := by
      intro p hp
      rw [show fixedMod.flat = [] from rfl] at hp
      simp at hp
    have mp : ∀ {m p}, m ∈ pathMods fixedMod fixedMod num optimize 0 → p ∈ m.flat → p < num := by
      intro m p hm hp
      simp only [pathMods, List.mem_append, List.mem_map, List.mem_range, List.mem_singleton] at hm
      rcases hm with (rfl | ⟨k, hk, rfl⟩) | rfl
      · exact (mf hp).elim
      · have := mt hp; omega
      · exact (mf hp).elim
    refine List.pairwise_append.2 ⟨List.pairwise_append.2 ⟨?_, ?_, ?_⟩, ?_, ?_⟩
    · refine List.pairwise_append.2 ⟨List.pairwise_cons.2 ⟨?_, ?_⟩, List.pairwise_singleton _ _, ?_⟩
      · rintro m - ⟨p, h1, -⟩
        exact mf h1
      · show List.Pairwise _ (List.map _ _)
        rw [List.pairwise_map]
        refine List.pairwise_lt_range.imp fun {a b} hab => ?_
        rintro ⟨p, h1, h2⟩
        have := mt h1
        have := mt h2
        omega
      · intro a _ b hb
        rw [List.mem_singleton] at hb
        subst hb
        rintro ⟨p, -, h2⟩
        exact mf h2
    · rw [List.pairwise_map]
      refine List.pairwise_lt_range.imp fun {a b} hab => ?_
      rintro ⟨p, h1, h2⟩
      have := mk h1
      have := mk h2
      omega
    · intro a ha b hb
      obtain ⟨k, hk, rfl⟩ := List.mem_map.1 hb
      rintro ⟨p, h1, h2⟩
      have := mp ha h1
      have := mk h2
      omega
    · rw [List.pairwise_map]
      refine List.pairwise_lt_range.imp fun {a b} hab => ?_
      rintro ⟨p, h1, h2⟩
      have := mk h1
      have := mk h2
      omega
    · intro a ha b hb
      obtain ⟨k, hk, rfl⟩ := List.mem_map.1 hb
      rintro ⟨p, h1, h2⟩
      have h3 := mk h2
      rcases List.mem_append.1 ha with ha | ha
      · have := mp ha h1
        omega
      · obtain ⟨j, hj, rfl⟩ := List.mem_map.1 ha
        have := mk h1
        rw [List.mem_range] at hj
        omega
  obtain ⟨-, h2⟩ := C74_adam ((paperMods num optimize).map .module)
  rcases h2 _ rfl with ⟨-, h3 | ⟨i, j, h3, hj, h4⟩⟩ | ⟨gs, h3, -, -, -, -, h4⟩
  · simp [paperMods, pathMods] at h3
  · exact absurd h4 (List.pairwise_iff_getElem.1 hp i j (by omega) hj h3)
  · have he := adam_modules (paperMods num optimize) (by simp [paperMods, pathMods])
    rw [if_pos hp, h3] at he
    have he := Except.ok.inj he
    rw [hg] at he
    subst he
    refine ⟨_, _, h3, rfl, by simp; omega, ?_, h4, ?_⟩
    · intro g hg
      rcases List.mem_append.1 hg with hg | hg
      all_goals
        obtain ⟨k, -, rfl⟩ := List.mem_map.1 hg
        rw [hk]; rfl
    · simp only [hk]
      cases optimize <;> simp [List.length_flatten, Function.comp_def] <;> omega

/-- C74. Annealing between ends that can be trained: with three or more targets the intermediate ones contain both ends, so that the optimiser of nvi_train raises
ValueError as soon as one end has a parameter, whatever the kernels are. -/
theorem C74_learnable_ends (left right : Mod) (total : Nat) (h : 3 ≤ total) (optimize : Bool) (n : Nat) (kernels : List Mod) (p : Nat)
    (hp : p ∈ left.flat ∨ p ∈ right.flat) :
    adam ((pathMods left right total optimize n ++ kernels).map .module) = .error .value := by
  rw [adam_modules _ (by simp [pathMods]), if_neg]
  intro hw
  rw [List.pairwise_append] at hw
  have hw := hw.1
  obtain ⟨k, hk⟩ : ∃ k, total - 2 = k + 1 := ⟨total - 3, by omega⟩
  simp only [pathMods, hk, List.range_succ_eq_map, List.map_cons] at hw
  have ht : ∀ q, q ∈ left.flat ∨ q ∈ right.flat → q ∈ (temperedMod optimize (n + 0) left right).flat := by
    intro q hq
    simp only [temperedMod, Mod.flat, Mod.flats, List.append_nil, List.mem_append]
    exact Or.inr hq
  rcases hp with hp | hp
  · have := List.rel_of_pairwise_cons hw (a' := temperedMod optimize (n + 0) left right) (by simp)
    exact this ⟨p, hp, ht p (Or.inl hp)⟩
  · rw [List.pairwise_append] at hw
    exact hw.2.2 (temperedMod optimize (n + 0) left right) (by simp) right (by simp) ⟨p, ht p (Or.inr hp), hp⟩

/-- C74. The optimiser of train_apg on what `init_models` makes: creating it does not raise, and it trains the six tensors of the decoder, the ten of Enc_coor and the eight
of Enc_digit, each once. If Enc_coor registered the decoder it uses, instead of reaching it through a function, it would raise. -/
theorem C74_apg :
    (∀ n, ∃ dec coor digit, adam ((apgMods n).map .module) = .ok [dec, coor, digit] ∧ dec.length = 6 ∧ coor.length = 10 ∧ digit.length = 8 ∧
      (dec ++ coor ++ digit).Nodup) ∧
    ∀ dec others : List Mod, ∀ own, (∃ d ∈ dec, ∃ p, p ∈ d.flat) →
      adam ((dec ++ .mk own dec :: others).map .module) = .error .value := by
  constructor
  · intro n
    have e1 : (decoderMod n).flat = (List.range 6).map (n + ·) := rfl
    have e2 : (encCoorMod (n + 6) (decoderMod n)).flat = (List.range 10).map (n + 6 + ·) := rfl
    have e3 : (encDigitMod (n + 16)).flat = (List.range 8).map (n + 16 + ·) := rfl
    have nd : ∀ a k : Nat, ((List.range k).map (a + ·)).Nodup := fun a k => List.nodup_range.map fun _ _ h => by simpa using h
    have ps : ∀ (m : Mod) a k, m.flat = (List.range k).map (a + ·) → m.parameters = (List.range k).map (a + ·) := by
      intro m a k h
      rw [Mod.parameters, h, List.dedup_eq_self.2 (List.nodup_reverse.2 (nd a k)), List.reverse_reverse]
    have hw : (apgMods n).Pairwise fun a b => ¬ Spec.Share a b := by
      simp only [apgMods, List.pairwise_cons, List.mem_cons, List.not_mem_nil, or_false, forall_eq_or_imp, forall_eq, Spec.Share, e1, e2, e3, List.mem_map,
        List.mem_range, List.Pairwise.nil, and_true, false_imp_iff, implies_true]
      refine ⟨⟨?_, ?_⟩, ?_⟩
      all_goals
        rintro ⟨p, ⟨a, ha, h1⟩, b, hb, h2⟩
        omega
    refine ⟨_, _, _, (adam_modules _ (by simp [apgMods])).trans (if_pos hw), ?_, ?_, ?_, ?_⟩
    · rw [ps _ _ _ e1]; simp
    · rw [ps _ _ _ e2]; simp
    · rw [ps _ _ _ e3]; simp
    · rw [ps _ _ _ e1, ps _ _ _ e2, ps _ _ _ e3]
      refine List.nodup_append.2 ⟨List.nodup_append.2 ⟨nd _ _, nd _ _, ?_⟩, nd _ _, ?_⟩
      all_goals
        simp only [List.mem_append, List.mem_map, List.mem_range]
      · rintro _ ⟨a, ha, rfl⟩ _ ⟨b, hb, rfl⟩
        omega
      · rintro _ (⟨a, ha, rfl⟩ | ⟨a, ha, rfl⟩) _ ⟨b, hb, rfl⟩ <;> omega
  · rintro dec others own ⟨d, hd, p, hp⟩
    rw [adam_modules _ (by simp), if_neg]
    intro hw
    rw [List.pairwise_append] at hw
    refine hw.2.2 d hd (.mk own dec) (by simp) ⟨p, hp, ?_⟩
    have : ∀ ms : List Mod, d ∈ ms → p ∈ Mod.flats ms := by
      intro ms hm
      induction ms with
      | nil => simp at hm
      | cons m ms ih =>
        rw [Mod.flats, List.mem_append]
        rcases List.mem_cons.1 hm with rfl | hm
        · exact Or.inl hp
        · exact Or.inr (ih hm)
    rw [Mod.flat, List.mem_append]
    exact Or.inr (this dec hd)

/-- C74: four targets with a learned path: two logits and six kernels. -/
example : ∃ gs, adam ((paperMods 4 true).map .module) = .ok gs ∧ gs.flatten.length = 38 ∧ gs.take 4 = [[], [0], [1], []] := by
  obtain ⟨t, k, h1, h2, -, -, -, h3⟩ := C74_paper 4 (by decide) true
  exact ⟨_, h1, h3, by rw [h2]; rfl⟩

/-- C74: annealing to a target with a network in it, three targets: ValueError, although every module is fine by itself. -/
example : adam ((pathMods fixedMod (kernelMod 7) 3 false 0).map .module) = .error .value :=
  (by simpa using C74_learnable_ends fixedMod (kernelMod 7) 3 (by decide) false 0 [] 7 (Or.inr (by simp [kernelMod, resMLPJMod, seqMod, linearMod, Mod.flat, Mod.flats])))

/-- C74: the same module twice, a combinator, nothing. -/
example : adam [.module (linearMod 0), .module (linearMod 0)] = .error .value ∧ adam [.module (linearMod 0), .other] = .error .attribute ∧ adam [] = .error .value :=
  ⟨rfl, rfl, rfl⟩

end Verif
