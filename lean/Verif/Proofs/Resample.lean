import Verif.Proofs.Systematic
import Verif.Props.Metrics
import Verif.Props.Nests
/-
What `Systematic` returns.
-/
namespace Verif

theorem foldlM_insert_ok {α : Type} (f : α → Except Err α) (l : List (String × α)) (acc r : Dict α)
    (hn : (acc.keys ++ keysL l).Nodup)
    (h : l.foldlM (fun (new : Dict α) e => do let x ← f e.2; .ok (new.insert e.1 x)) acc = (.ok r : Except Err _)) :
    ∃ m, r.entries = acc.entries ++ m ∧ List.Forall₂ (fun e e' => e'.1 = e.1 ∧ f e.2 = .ok e'.2) l m := by
  induction l generalizing acc with
  | nil =>
    simp only [List.foldlM_nil] at h
    cases h
    exact ⟨[], by simp, .nil⟩
  | cons e l ih =>
    rw [List.foldlM_cons] at h
    cases hf : f e.2 with
    | error x => rw [hf] at h; cases h
    | ok x =>
      rw [hf] at h
      have hk : e.1 ∉ acc.keys := by
        rw [keysL_cons, List.nodup_append] at hn
        intro h1
        exact hn.2.2 e.1 h1 e.1 List.mem_cons_self rfl
      have hkeys : (acc.insert e.1 x).keys = acc.keys ++ [e.1] := by rw [Dict.keys_insert, if_neg hk]
      obtain ⟨m, h1, h2⟩ := ih (acc.insert e.1 x) (by rw [hkeys]; simpa using hn) h
      refine ⟨(e.1, x) :: m, ?_, .cons ⟨rfl, hf⟩ h2⟩
      rw [h1, Dict.entries_insert_of_not_mem x hk, List.append_assoc, List.singleton_append]

theorem foldlM_insert_total {α : Type} (f : α → Except Err α) (l : List (String × α)) (acc : Dict α)
    (h : ∀ e ∈ l, ∃ x, f e.2 = .ok x) :
    ∃ r, l.foldlM (fun (new : Dict α) e => do let x ← f e.2; .ok (new.insert e.1 x)) acc = (.ok r : Except Err _) := by
  induction l generalizing acc with
  | nil => exact ⟨acc, rfl⟩
  | cons e l ih =>
    obtain ⟨x, hx⟩ := h e List.mem_cons_self
    obtain ⟨r, hr⟩ := ih (acc.insert e.1 x) fun e' he' => h e' (List.mem_cons_of_mem _ he')
    refine ⟨r, ?_⟩
    rw [List.foldlM_cons, hx]
    exact hr

theorem forall₂_map {α β : Type} {R : α → β → Prop} {f : α → β} {l : List α} {m : List β} (h : List.Forall₂ R l m)
    (hR : ∀ a b, R a b → b = f a) : m = l.map f := by
  induction h with
  | nil => rfl
  | cons h _ ih => rw [List.map_cons, ih, hR _ _ h]

section
variable {n b : Nat} {X D : Type} {lp : D → (Fin n → Fin b → X) → Fin n → Fin b → ℝ}

/-- The variables that resampling permutes. -/
def Spec.Permuted {L : Lang} (rv : RV L) : Prop := rv.resamplable = true ∧ rv.prov ≠ .observed

/-- What resampling should make of one variable, given each slot's ancestor: all entries of the slot come from the
ancestor, everything else stays. (An improper variable's reparameterized flag is set to the default.) -/
def Spec.Moved (a : Fin n → Fin b → Fin n) (rv rv' : RV (TLang n b X D lp)) : Prop :=
  (Permuted rv → rv'.prov = rv.prov ∧ rv'.kind = rv.kind ∧ rv'.resamplable = true ∧ rv.kind ≠ .other ∧
    (∀ f, rv.kind = .improper f → rv'.reparam = true) ∧ (∀ d, rv.kind = .proper d → rv'.reparam = rv.reparam) ∧
    (∀ s j, rv'.value s j = rv.value (a s j) j) ∧ ∀ s j, rv'.logProb s j = rv.logProb (a s j) j) ∧
  (¬ Permuted rv → rv' = rv)

open Spec

theorem pickT_of_valid {X : Type} (a : Fin n → Fin b → Fin n) (z : Fin n → Fin b → X) :
    pickT (fun s j => (a s j).val) z = .ok (fun s j => z (a s j) j) := by
  unfold pickT
  rw [dif_pos (fun s j => (a s j).isLt)]

theorem resampleRV_ok (a : Fin n → Fin b → Fin n) (rv rv' : RV (TLang n b X D lp))
    (h : resampleRV (fun s j => (a s j).val) rv = .ok rv') : Moved a rv rv' := by
  unfold resampleRV at h
  split at h
  · rename_i hc
    cases h
    refine ⟨fun ⟨h1, h2⟩ => ?_, fun _ => rfl⟩
    simp [h1, h2] at hc
  · rename_i hc
    have hv := pickT_of_valid a rv.value
    have hp := pickT_of_valid a rv.logProb
    have hc' : rv.resamplable = true ∧ rv.prov ≠ .observed := by simpa using hc
    refine ⟨fun _ => ?_, fun hn => absurd hc' hn⟩
    simp only [bind, Except.bind] at h
    erw [hv, hp] at h
    simp only at h
    cases hk : rv.kind with
    | proper d => rw [hk] at h; cases h; simp
    | improper f => rw [hk] at h; cases h; simp
    | other => rw [hk] at h; cases h

theorem resampleRV_total (a : Fin n → Fin b → Fin n) (rv : RV (TLang n b X D lp))
    (h : Permuted rv → rv.kind ≠ .other) : ∃ rv', resampleRV (fun s j => (a s j).val) rv = .ok rv' := by
  unfold resampleRV
  split
  · exact ⟨rv, rfl⟩
  · rename_i hc
    have hv := pickT_of_valid a rv.value
    have hp := pickT_of_valid a rv.logProb
    have hc' : rv.resamplable = true ∧ rv.prov ≠ .observed := by simpa using hc
    simp only [bind, Except.bind]
    erw [hv, hp]
    cases hk : rv.kind with
    | proper d => exact ⟨_, rfl⟩
    | improper f => exact ⟨_, rfl⟩
    | other => exact absurd hk (h hc')

theorem softmax_hyps [NeZero n] (lw : Fin n → ℝ) : (∀ i, 0 ≤ softmax lw i) ∧ 0 < ∑ i, softmax lw i :=
  ⟨fun i => (softmax_pos lw i).le, by rw [softmax_sum]; exact one_pos⟩

theorem systematicAt_ok [hn : NeZero n] (normalize : Bool) (t t' : Trace (TLang n b X D lp)) (lv : Fin n → Fin b → ℝ)
    (u : Fin b → Set.Ico (0 : ℝ) 1) (lw' : LW (TLang n b X D lp).W) (h : systematicAt normalize t lv u = .ok (t', lw')) :
    ∃ a : Fin n → Fin b → Fin n, (∀ s j, (a s j).val = ancestors (softmax fun i => lv i j) (u j).1 s) ∧
      List.Forall₂ (fun e e' => e'.1 = e.1 ∧ Moved a e.2 e'.2) t.entries t'.entries ∧
      lw' = .tensor (fun s j => resampledLw normalize (fun i => lv i j) s) := by
  unfold systematicAt at h
  rw [dif_neg hn.ne] at h
  have hval : ∀ s j, ancestors (softmax fun i => lv i j) (u j).1 s < n := fun s j =>
    ancestors_lt (softmax_hyps _).1 (softmax_hyps _).2 (u j).2.2.le s
  refine ⟨fun s j => ⟨_, hval s j⟩, fun _ _ => rfl, ?_⟩
  simp only at h
  cases hr : resampleTrace (fun s j => ancestors (softmax fun i => lv i j) (u j).1 s) t with
  | error e => rw [hr] at h; cases h
  | ok r =>
    rw [hr] at h
    simp only [Except.ok.injEq, Prod.mk.injEq] at h
    obtain ⟨rfl, rfl⟩ := h
    refine ⟨?_, rfl⟩
    obtain ⟨m, h1, h2⟩ := foldlM_insert_ok _ _ _ _ (by simpa using t.nodup) hr
    have : r.entries = m := by simpa using h1
    rw [this]
    exact h2.imp fun e e' he => ⟨he.1, resampleRV_ok _ _ _ he.2⟩

theorem systematicAt_total [hn : NeZero n] (normalize : Bool) (t : Trace (TLang n b X D lp)) (lv : Fin n → Fin b → ℝ)
    (u : Fin b → Set.Ico (0 : ℝ) 1) (ht : ∀ k rv, t.get? k = some rv → Permuted rv → rv.kind ≠ .other) :
    ∃ r, systematicAt normalize t lv u = .ok r := by
  have hval : ∀ s j, ancestors (softmax fun i => lv i j) (u j).1 s < n := fun s j =>
    ancestors_lt (softmax_hyps _).1 (softmax_hyps _).2 (u j).2.2.le s
  obtain ⟨r, hr⟩ := foldlM_insert_total
    (resampleRV fun s j => ancestors (softmax fun i => lv i j) (u j).1 s) t.entries Dict.empty (by
      intro e he
      exact resampleRV_total (fun s j => ⟨_, hval s j⟩) e.2 (ht e.1 e.2 (Dict.get?_eq_some.2 he)))
  unfold systematicAt
  rw [dif_neg hn.ne]
  unfold resampleTrace
  simp only [hr]
  exact ⟨_, rfl⟩

/-- Everything about a normal return of `Systematic`. -/
theorem systematic_ok (oneD normalize : Bool) (sd bd : PyVal (TLang n b X D lp)) (t t' : Trace (TLang n b X D lp))
    (lw lw' : LW (TLang n b X D lp).W) (h : (systematic oneD normalize sd bd t lw).Ret (.ok (t', lw'))) :
    ∃ (_ : NeZero n) (lv : Fin n → Fin b → ℝ) (u : Fin b → Set.Ico (0 : ℝ) 1) (a : Fin n → Fin b → Fin n),
      lw = .tensor lv ∧ checkDims oneD n b sd bd = .ok () ∧
      (∀ s j, (a s j).val = ancestors (softmax fun i => lv i j) (u j).1 s) ∧
      List.Forall₂ (fun e e' => e'.1 = e.1 ∧ Moved a e.2 e'.2) t.entries t'.entries ∧
      lw' = .tensor (fun s j => resampledLw normalize (fun i => lv i j) s) := by
  unfold systematic at h
  cases lw with
  | float0 => simp only at h; split at h <;> cases h
  | tensor lv =>
    simp only at h
    cases hc : checkDims oneD n b sd bd with
    | error e => rw [hc] at h; cases h
    | ok _ =>
      rw [hc] at h
      obtain ⟨u, h⟩ := h
      rw [Comp.ret_Ret] at h
      by_cases hn : n = 0
      · unfold systematicAt at h
        rw [dif_pos hn] at h; cases h
      have hn' : NeZero n := ⟨hn⟩
      obtain ⟨a, h1, h2, h3⟩ := systematicAt_ok normalize t t' lv u lw' h
      exact ⟨hn', lv, u, a, rfl, rfl, h1, h2, h3⟩

/-- When `Systematic` cannot raise. -/
theorem systematic_total [hn : NeZero n] (oneD normalize : Bool) (sd bd : PyVal (TLang n b X D lp))
    (t : Trace (TLang n b X D lp)) (lv : Fin n → Fin b → ℝ) (hd : checkDims oneD n b sd bd = .ok ())
    (ht : ∀ k rv, t.get? k = some rv → Permuted rv → rv.kind ≠ .other) (u : Fin b → Set.Ico (0 : ℝ) 1) :
    ∃ t' lw', systematicAt normalize t lv u = .ok (t', lw') ∧
      (systematic oneD normalize sd bd t (.tensor lv)).Ret (.ok (t', lw')) := by
  obtain ⟨⟨t', lw'⟩, hr⟩ := systematicAt_total normalize t lv u ht
  refine ⟨t', lw', hr, ?_⟩
  unfold systematic
  simp only [hd]
  exact ⟨u, hr⟩

end
end Verif
