import Verif.Spec.ApgLaw
import Verif.Proofs.ApgGibbs
/-
The sampler with a resampler that changes nothing draws as its one-particle description.
-/
namespace Verif
open Spec Apg
variable {L : Lang} {N : ApgNet L} {same : L.V → L.V → Bool} {T : Nat} {α β γ δ : Type}

theorem Apg.Like.mono {Q Q' : β → α → World L → Prop} {m : Comp L (Except Err α × World L)} {K : Comp L β} (h : Like Q m K)
    (hq : ∀ b a w, Q b a w → Q' b a w) : Like Q' m K := by
  induction h with
  | ret h => exact .ret (hq _ _ _ h)
  | draw _ ih => exact .draw ih
  | rand _ ih => exact .rand ih
  | skip _ ih => exact .skip ih

theorem Apg.Like.bind {Q1 : β → α → World L → Prop} {Q : γ → δ → World L → Prop} {m : Exec L α} {f : α → Exec L δ} {w : World L}
    {K : Comp L β} {K' : β → Comp L γ} (h : Like Q1 (m w) K) (hf : ∀ b a w1, Q1 b a w1 → Like Q (f a w1) (K' b)) :
    Like Q (Exec.bind m f w) (K.bind K') := by
  unfold Exec.bind
  generalize m w = c at h
  induction h with
  | ret h => exact hf _ _ _ h
  | draw _ ih => exact .draw ih
  | rand _ ih => exact .rand ih
  | skip _ ih => exact .skip ih

/-- What always returns the same. -/
theorem Apg.Always.like {x : Except Err α} {a : α} {c : Comp L (Except Err α)} (h : Always x c) (hx : x = .ok a) {Q : Unit → δ → World L → Prop}
    {f : α → Exec L δ} {w : World L} (hf : (f a).Done w (Q ())) : Like Q (Exec.bind (Exec.liftComp c) f w) (.ret ()) := by
  unfold Exec.bind Exec.liftComp
  induction h with
  | ret =>
    obtain ⟨c, w2, h1, h2⟩ := hf
    subst hx
    show Like Q (f a w) _
    rw [h1]
    exact .ret h2
  | rand _ ih => exact .skip ih

theorem Apg.Like.to {b : β} {m : Comp L (Except Err α × World L)} {Q : Unit → α → World L → Prop} {Q' : β → α → World L → Prop}
    (h : Like Q m (.ret ())) (hq : ∀ a w, Q () a w → Q' b a w) : Like Q' m (.ret b) := by
  generalize hK : (Comp.ret () : Comp L Unit) = K at h
  induction h with
  | ret h => exact .ret (hq _ _ h)
  | draw _ _ => cases hK
  | rand _ _ => cases hK
  | skip _ ih => exact .skip fun u => ih u hK

theorem Exec.Draws.like {m : Exec L α} {w : World L} {K : Comp L β} {Q : β → α → World L → Prop} {Q' : γ → α → World L → Prop} {g : β → γ}
    (h : m.Draws w K Q) (hq : ∀ b a w', Q b a w' → Q' (g b) a w') : Like Q' (m w) (K.bind fun b => .ret (g b)) := by
  obtain ⟨F, h1, h2⟩ := h
  rw [h1]
  clear h1
  induction K with
  | ret b => exact .ret (hq _ _ _ (h2 b))
  | draw d rep k ih => exact .draw ih
  | rand k ih => exact .rand ih

/-- The particle in the result of a stage. -/
structure Holds (N : ApgNet L) (T n n' : Nat) (s zw : Int) (f : L.V) (p : Particle L) (out : Out L) : Prop where
  wheres : ∀ i, i < T → valueAt out.trace (whereAt n s i) = some (p.pos i)
  appearance : valueAt out.trace (zWhatName zw) = some p.what
  total : total out.trace = joint N T n' f p.pos p.what
  marked : Marked out.trace
  weight : out.logWeight = .tensor p.lw
  plain : Plain out.trace

theorem holds_latents {n : Nat} {s zw : Int} {f : L.V} {p : Particle L} {out : Out L}
    (h : Latents N T n s zw f p.pos p.what out.trace) (ha : ∀ k, out.trace.contains k = true ↔ Addr T n s zw k)
    (hw : out.logWeight = .tensor p.lw) : Holds N T n n s zw f p out := by
  refine ⟨fun i hi => by simp [valueAt, h.wheres i hi, RV.mk'], by simp [valueAt, h.appearance, RV.mk'], h.total, ?_, hw, ?_⟩
  swap
  · intro k rv hk
    have hin : Addr T n s zw k := (ha k).1 (Dict.contains_iff.2 (Dict.mem_keys_iff.2 ⟨_, hk⟩))
    rcases hin with rfl | rfl | ⟨i, hi, rfl⟩
    · rw [h.recon] at hk
      cases hk
      exact ⟨rfl, _, rfl⟩
    · rw [h.appearance] at hk
      cases hk
      exact ⟨rfl, _, rfl⟩
    · rw [h.wheres i hi] at hk
      cases hk
      exact ⟨rfl, _, rfl⟩
  intro k rv hk
  have hin : Addr T n s zw k := (ha k).1 (Dict.contains_iff.2 (Dict.mem_keys_iff.2 ⟨_, hk⟩))
  rcases hin with rfl | rfl | ⟨i, hi, rfl⟩
  · rw [h.recon] at hk
    cases hk
    simp [RV.mk']
  · rw [h.appearance] at hk
    cases hk
    refine iff_of_false (by simp [RV.mk']) fun he => (C42_kinds_disjoint 0 0 _).2.2.1 he
  · rw [h.wheres i hi] at hk
    cases hk
    refine iff_of_false (by simp [RV.mk']) fun he => (C42_kinds_disjoint _ _ 0).2.1 he

/-- Arguments with these dimensions. -/
def KwFor (sd bd : PyVal L) (kw : Kw L) : Prop := KwOk kw ∧ kw.sampleDims = sd ∧ kw.batchDim = bd

theorem KwFor.sub {sd bd : PyVal L} {kw : Kw L} (h : KwFor sd bd kw) (a : Attrs L) : KwFor sd bd (subKw a kw) := h

/-- Resampling that only changes the weight. -/
theorem like_resample (hsame : ∀ v, same v v = true) {r : ResamplerFn L} {sd bd : PyVal L} {φ : L.W → L.W} (hr : Keeps r sd bd φ)
    {n n' : Nat} {s zw : Int} {f : L.V} {a : Attrs L} {q : Node L} {c : PyVal L} {kw : Kw L} (hkw : KwFor sd bd kw) {w : World L}
    {K : Comp L (Particle L)} (hl : a.lossFn = idLoss)
    (hq : Like (fun p out w' => Stage N same T n s zw f out w' ∧ Holds N T n n' s zw f p out) (eval q c (childKw a kw) w) K) :
    Like (fun p out w' => Ready N same T n s zw f out w' ∧ Holds N T n n' s zw f p out) (eval (.resample a r q) c kw w)
      (K.bind fun p => .ret (reweigh φ p)) := by
  rw [eval_resampleTail, hkw.2.1, hkw.2.2]
  refine Apg.Like.bind hq ?_
  rintro p qo w1 ⟨hS, hH⟩
  have h := hr qo.trace p.lw hH.plain
  rw [← hH.weight] at h
  refine (h.like rfl (Q := fun _ out w' => Ready N same T n s zw f out w' ∧ Holds N T n n' s zw f (reweigh φ p) out) ?_).to fun _ _ h => h
  refine (done_resampleTail hsame hl hS (.tensor (φ p.lw)) fun _ => rfl).mono ?_
  rintro o w' ⟨h1, h2, h3, -⟩
  refine ⟨h1, ?_, ?_, ?_, ?_, ?_, ?_⟩
  · rw [h2]; exact hH.wheres
  · rw [h2]; exact hH.appearance
  · rw [h2]; exact hH.total
  · rw [h2]; exact hH.marked
  · rw [h3]; rfl
  · rw [h2]; exact hH.plain

theorem coorDraws_length {L : Lang} {N : ApgNet L} {f : L.V} {t : Int} {what : Option L.V} (m : Nat) (zs : List L.V) {ys : List L.V}
    (h : (coorDraws N f t what m zs).Ret ys) : ys.length = zs.length + m := by
  induction m generalizing zs with
  | zero => cases h; rfl
  | succ m ih =>
    obtain ⟨v, h⟩ := h
    rw [ih _ h, List.length_append]
    simp only [List.length_cons, List.length_nil]
    omega

/-- A result comes from an outcome of the law. -/
theorem Apg.Like.runs {α β : Type} {Q : β → α → World L → Prop} {m : Comp L (Except Err α × World L)} {K : Comp L β}
    (h : Like Q m K) {x : Except Err α} {w' : World L} (hx : m.Ret (x, w')) : ∃ b a, K.Ret b ∧ x = .ok a ∧ Q b a w' := by
  induction h with
  | ret h => cases hx; exact ⟨_, _, rfl, rfl, h⟩
  | draw _ ih =>
    obtain ⟨v, hv⟩ := hx
    obtain ⟨b, a, h1, h2⟩ := ih v hv
    exact ⟨b, a, ⟨v, h1⟩, h2⟩
  | rand _ ih =>
    obtain ⟨v, hv⟩ := hx
    obtain ⟨b, a, h1, h2⟩ := ih v hv
    exact ⟨b, a, ⟨v, h1⟩, h2⟩
  | skip _ ih =>
    obtain ⟨v, hv⟩ := hx
    exact ih v hv

section whole
variable {i0 i1 i2 i3 fresh : ObjId} {fl : LW L.W → LW L.W → LW L.W → L.Lo} {gl : LW L.W → LW L.W → L.W → L.Lo}
  {r : ResamplerFn L} {kvs : List (String × PyVal L)} {f : L.V}

theorem like_gibbsInit (hf : item (.dict kvs) "frames" = .ok f) (hT : N.timesteps f = T) (m : Nat) (hm : m ≤ T) (kw : Kw L)
    (hkw : KwOk kw) (w : World L) (hw : Calm same w) :
    Like (fun x out w' => Started N same T m f out w' ∧ total out.trace = x.2 ∧
        ∀ i, i < m → valueAt out.trace (zWhereName i 0) = some (x.1 i))
      (eval (gibbsInit fresh (apgObjs N i0 i1 i2 i3 fl gl r) m) (.dict kvs) kw w) (initLaw N f m) := by
  induction m generalizing kw w with
  | zero =>
    obtain ⟨o, w', h1, h2, h3⟩ := done_noop (N := N) (T := T) (i0 := i0) hf kw hkw w hw
    unfold gibbsInit initLaw
    show Like _ (eval (.prog i0 noopProg) (.dict kvs) kw w) _
    rw [h1]
    exact .ret ⟨h2, h3, fun i hi => by omega⟩
  | succ m ih =>
    unfold gibbsInit mkCompose initLaw
    rw [eval_compose_eq, childKw_eq]
    refine Apg.Like.bind (ih (by omega) _ (hkw.sub _) w hw) ?_
    rintro x o1 w1 ⟨h1, h2, h3⟩
    refine (draws_initStep hT (by omega) rfl rfl rfl hkw h1).like ?_
    rintro zs out w' ⟨h4, h5, h6⟩
    refine ⟨h4, by rw [h5, h2], fun i hi => ?_⟩
    rw [h6]
    show _ = some (Function.update x.1 m (N.stack zs) i)
    by_cases e : i = m
    · subst e
      rw [if_pos rfl, Function.update_self]
    · rw [if_neg (where_ne (Or.inl e)), Function.update_of_ne e, h3 i (by omega)]

theorem posOf_val {dflt : L.V} {t : Trace L} {s : Int} {i : Nat} {v : L.V} (h : valueAt t (zWhereName i s) = some v) : posOf dflt t s i = v := by
  unfold valueAt at h
  rw [Option.map_eq_some_iff] at h
  obtain ⟨rv, h1, rfl⟩ := h
  exact posOf_eq h1

theorem like_gibbsIs (hd : ∀ v, N.timesteps (L.detachV v) = N.timesteps v) (hpos : 0 < T) (hf : item (.dict kvs) "frames" = .ok f)
    (hT : N.timesteps f = T) :
    ∃ q, gibbsIs fresh (apgObjs N i0 i1 i2 i3 fl gl r) T = .ok q ∧ ∀ kw, KwOk kw → ∀ w, Calm same w →
      Like (fun p out w' => Stage N same T T 0 0 f out w' ∧ Holds N T T T 0 0 f p out ∧ Latents N T T 0 0 f p.pos p.what out.trace)
        (eval q (.dict kvs) kw w) (isLaw N f T) := by
  refine ⟨_, rfl, fun kw hkw w hw => ?_⟩
  unfold mkCompose isLaw
  rw [eval_afterFirst]
  refine Apg.Like.bind (like_gibbsInit hf hT T (le_refl _) _ ((hkw.sub _).sub _) w hw) ?_
  rintro x o1 w1 ⟨h1, h2, h3⟩
  have hp : ∀ i, i < T → posOf f o1.trace 0 i = x.1 i := fun i hi => posOf_val (h3 i hi)
  have hr : (List.range T).map (posOf f o1.trace 0) = (List.range T).map x.1 :=
    List.map_congr_left fun i hi => hp i (by simpa using hi)
  have h := draws_isStep (fl := fl) (same := same) (i2 := i2) (i3 := i3) hd hpos hf hT
    (ap := mkAttrs fresh (some (lossIs fl)) none (fwdIx T 0) false) (ac := mkAttrs fresh none none (fwdIx T 0) false)
    (q := gibbsInit fresh (apgObjs N i0 i1 i2 i3 fl gl r) T) rfl rfl rfl rfl (by
    intro out px tot h1
    simp only [mkAttrs, Option.getD_some, lossIs, h1]) hkw h1
  rw [hr] at h
  refine h.like (g := fun z => Particle.mk x.1 z (L.detachW (joint N T T f x.1 z - (x.2 + L.logProb (N.digitDist f ((List.range T).map x.1)) z)))) ?_
  rintro z out w' ⟨h4, h5, h6, -⟩
  have h7 := h5.congr hp
  exact ⟨h4, holds_latents h7 h4.addr (by rw [h6, h7.total, h2]), h7⟩

variable (hd : ∀ v, N.timesteps (L.detachV v) = N.timesteps v) (hsame : ∀ v, same v v = true)
  {sd bd : PyVal L} {φ : L.W → L.W} (hr : Keeps r sd bd φ)
  (hf : item (.dict kvs) "frames" = .ok f) (hT : N.timesteps f = T) (h1 : i1 ≤ fresh) (h2 : i2 ≤ fresh) (h3 : i3 ≤ fresh)

include hd hf hT h1 h3 in
theorem like_coorStep {q : Node L} {t s : Nat} (ht : t < T) (hs : 0 < s) {kw : Kw L} (hkw : KwOk kw) {o1 : Out L} {w1 : World L}
    {p : Particle L} (hR : Ready N same T t s ((s : Int) - 1) f o1 w1)
    (hH : Holds N T t (if t = 0 then T else t) s ((s : Int) - 1) f p o1) :
    Like (fun p out w' => Stage N same T (t + 1) s ((s : Int) - 1) f out w' ∧ Holds N T (t + 1) (t + 1) s ((s : Int) - 1) f p out)
      (afterFirst (sweepParts fresh gl T t s).1 (sweepParts fresh gl T t s).2.1 (fun t _ => .ok t) true
      (.extend (sweepParts fresh gl T t s).2.2 (.prog i3 (decProg N)) (.prog i1 (encCoorProg N))) (.prog i1 (encCoorProg N)) q
      (.dict kvs) kw o1 w1) (coorLaw N f T p t) := by
  obtain ⟨what, hw, h⟩ := draws_coorStep (fresh := fresh) (gl := gl) (q := q) hd hf hT h1 h3 ht hs hkw hR
  rw [hH.appearance] at hw
  cases hw
  unfold coorLaw
  refine h.like ?_
  rintro zs out w' ⟨hS, val, z, hlat, hz, hM, -⟩
  have hz' := hH.wheres t ht
  rw [whereAt_ge (le_refl _), hz] at hz'
  cases hz'
  have hval : ∀ i, i < T → val i = Function.update p.pos t (N.stack zs) i := by
    intro i hi
    have h4 := hM.values (whereAt (t + 1) s i) (Or.inr (Or.inr ⟨i, hi, rfl⟩)) (fun he => (C42_kinds_disjoint _ _ 0).2.1 he)
    rw [valueAt, hlat.wheres i hi] at h4
    by_cases e : i = t
    · subst e
      rw [whereAt_lt (Nat.lt_succ_self _), if_pos rfl] at h4
      rw [Function.update_self]
      exact Option.some.inj h4
    · have hsame : whereAt (t + 1) s i = whereAt t s i := by
        unfold whereAt
        congr 1
        by_cases e2 : i < t
        · rw [if_pos e2, if_pos (by omega)]
        · rw [if_neg e2, if_neg (by omega)]
      rw [hsame, if_neg (by rw [whereAt]; exact where_ne (Or.inl e)), hH.wheres i hi] at h4
      rw [Function.update_of_ne e]
      exact Option.some.inj h4
  have hlat' := hlat.congr hval
  refine ⟨hS, holds_latents hlat' hS.addr ?_⟩
  rw [hM.weight hH.marked, hlat'.total, hH.total, hH.weight]
  rfl

include hd hf hT h2 h3 in
theorem like_digitStep {q : Node L} {s : Nat} (hpos : 0 < T) (hs : 0 < s) {kw : Kw L} (hkw : KwOk kw) {o1 : Out L} {w1 : World L}
    {p : Particle L} (hR : Ready N same T T s ((s : Int) - 1) f o1 w1) (hH : Holds N T T T s ((s : Int) - 1) f p o1) :
    Like (fun p out w' => Stage N same T T s s f out w' ∧ Holds N T T T s s f p out ∧ Latents N T T s s f p.pos p.what out.trace)
      (afterFirst (sweepParts fresh gl T T s).1 (sweepParts fresh gl T T s).2.1 (fun t _ => .ok t) true
      (.extend (sweepParts fresh gl T T s).2.2 (.prog i3 (decProg N)) (.prog i2 (encDigitProg N))) (.prog i2 (encDigitProg N)) q
      (.dict kvs) kw o1 w1) (digitLaw N f T p) := by
  have h := draws_digitStep (fresh := fresh) (gl := gl) (q := q) hd hf hT h2 h3 hpos hs hkw hR
  have hp : ∀ i, i < T → posOf f o1.trace s i = p.pos i := fun i hi => posOf_val (by rw [← whereAt_lt hi]; exact hH.wheres i hi)
  have hr : (List.range T).map (posOf f o1.trace s) = (List.range T).map p.pos :=
    List.map_congr_left fun i hi => hp i (by simpa using hi)
  rw [hr] at h
  unfold digitLaw
  refine h.like (g := fun z => Particle.mk p.pos z (L.detachW (p.lw +
        ((joint N T T f p.pos z + L.logProb (N.digitDist f ((List.range T).map p.pos)) p.what) -
          (joint N T T f p.pos p.what + L.logProb (N.digitDist (L.detachV f) ((List.range T).map p.pos)) z))))) ?_
  rintro z out w' ⟨hS, what, hlat, hw, hM, -⟩
  rw [hH.appearance] at hw
  cases hw
  have hlat' := hlat.congr hp
  refine ⟨hS, holds_latents hlat' hS.addr ?_, hlat'⟩
  rw [hM.weight hH.marked, hlat'.total, hH.total, hH.weight]
  rfl

/-- The Propose of a step. -/
def stepNode (fresh i3 : ObjId) (gl : LW L.W → LW L.W → L.W → L.Lo) (N : ApgNet L) (T t s : Nat) (k q : Node L) : Node L :=
  .propose (sweepParts fresh gl T t s).1 (fun t _ => .ok t) true (.extend (sweepParts fresh gl T t s).2.2 (.prog i3 (decProg N)) k)
    (.compose (sweepParts fresh gl T t s).2.1 k q)

/-- A proposal that draws as `K` and is ready for the next step. -/
def ReadyLaw (sd bd : PyVal L) (N : ApgNet L) (same : L.V → L.V → Bool) (T n n' : Nat) (s zw : Int) (kvs : List (String × PyVal L)) (f : L.V) (q : Node L)
    (K : Comp L (Particle L)) : Prop :=
  ∀ kw, KwFor sd bd kw → ∀ w, Calm same w →
    Like (fun p out w' => Ready N same T n s zw f out w' ∧ Holds N T n n' s zw f p out) (eval q (.dict kvs) kw w) K

include hd hsame hr hf hT h1 h3 in
theorem like_steps {q : Node L} {s : Nat} (hs : 0 < s) {K : Comp L (Particle L)}
    (hq : ReadyLaw sd bd N same T 0 T s ((s : Int) - 1) kvs f q K) (m : Nat) (hm : m ≤ T) :
    ∃ q', (List.range m).foldlM (gibbsStep fresh (apgObjs N i0 i1 i2 i3 fl gl r) T s) q = .ok q' ∧
      ReadyLaw sd bd N same T m (if m = 0 then T else m) s ((s : Int) - 1) kvs f q' (K.bind fun p => stepsLaw φ N f T p m) := by
  induction m with
  | zero =>
    refine ⟨q, rfl, ?_⟩
    rw [if_pos rfl]
    have : (K.bind fun p => stepsLaw φ N f T p 0) = K := Comp.bind_ret_right _
    rw [this]
    exact hq
  | succ m ih =>
    obtain ⟨q', e, hq'⟩ := ih (by omega)
    refine ⟨mkResample fresh (apgObjs N i0 i1 i2 i3 fl gl r).resampler (stepNode fresh i3 gl N T m s (.prog i1 (encCoorProg N)) q') none .none
      false, ?_, fun kw hkw w hw => ?_⟩
    · rw [List.range_succ, List.foldlM_append, e]
      simp only [bind, Except.bind, List.foldlM_cons, List.foldlM_nil, gibbsStep]
      rfl
    · rw [if_neg (Nat.succ_ne_zero _)]
      have : (K.bind fun p => stepsLaw φ N f T p (m + 1)) =
          ((K.bind fun p => stepsLaw φ N f T p m).bind fun p => coorLaw N f T p m).bind fun p => .ret (reweigh φ p) := by
        rw [Comp.bind_assoc, Comp.bind_assoc]
        congr 1
        funext p
        rw [← Comp.bind_assoc]
        rfl
      rw [this]
      refine like_resample hsame hr hkw rfl ?_
      unfold stepNode
      rw [eval_afterFirst]
      refine Apg.Like.bind (hq' _ ?_ w hw) ?_
      · exact (KwFor.sub (KwFor.sub hkw _) _)
      · rintro p o1 w1 ⟨hR, hH⟩
        exact like_coorStep hd hf hT h1 h3 (by omega) hs hkw.1 hR hH

theorem Holds_next {n' : Nat} {s zw : Int} {p : Particle L} {out : Out L} (h : Holds N T T n' s zw f p out) : Holds N T 0 n' (s + 1) zw f p out := by
  refine ⟨fun i hi => ?_, h.appearance, h.total, h.marked, h.weight, h.plain⟩
  rw [whereAt_ge (Nat.zero_le _), ← h.wheres i hi, whereAt_lt hi]
  congr 2; omega

include hd hsame hr hf hT h1 h2 h3 in
theorem like_sweeps (hpos : 0 < T) (S : Nat) :
    ∃ q0, gibbsIs fresh (apgObjs N i0 i1 i2 i3 fl gl r) T = .ok q0 ∧
      ∀ m, m ≤ S → ∃ q, (List.range' 1 m).foldlM (gibbsSweep fresh (apgObjs N i0 i1 i2 i3 fl gl r) T S)
      (if 0 < S then mkResample fresh r q0 none .none false else q0) = .ok q ∧
      (m ≠ S → ReadyLaw sd bd N same T T T m m kvs f q ((sweepsLaw φ N f T m).bind fun p => .ret (reweigh φ p))) ∧
      (m = S → ∀ kw, KwFor sd bd kw → ∀ w, Calm same w →
        Like (fun p out w' => Stage N same T T m m f out w' ∧ Holds N T T T m m f p out ∧ Latents N T T m m f p.pos p.what out.trace)
          (eval q (.dict kvs) kw w) (sweepsLaw φ N f T m)) := by
  obtain ⟨q0, e0, h0⟩ := like_gibbsIs (N := N) (same := same) (i0 := i0) (i1 := i1) (i2 := i2) (i3 := i3) (fresh := fresh)
    (fl := fl) (gl := gl) (r := r) hd hpos hf hT
  refine ⟨q0, e0, fun m hm => ?_⟩
  induction m with
  | zero =>
    refine ⟨_, rfl, fun h kw hkw w hw => ?_, fun h => ?_⟩
    · rw [if_pos (by omega)]
      exact like_resample hsame hr hkw rfl ((h0 _ hkw.1 w hw).mono fun _ _ _ h => ⟨h.1, h.2.1⟩)
    · rw [if_neg (by omega)]
      exact fun kw hkw => h0 kw hkw.1
  | succ m ih =>
    obtain ⟨q, e, hq, -⟩ := ih (by omega)
    have hq1 : ReadyLaw sd bd N same T 0 T ((m + 1 : Nat) : Int) (((m + 1 : Nat) : Int) - 1) kvs f q
        ((sweepsLaw φ N f T m).bind fun p => .ret (reweigh φ p)) := by
      intro kw hkw w hw
      refine (hq (by omega) kw hkw w hw).mono fun p o w' h => ?_
      have e1 : ((m + 1 : Nat) : Int) = (m : Int) + 1 := by omega
      rw [e1, Int.add_sub_cancel]
      exact ⟨Ready_next h.1, Holds_next h.2⟩
    obtain ⟨q', e', hq'⟩ := like_steps (i0 := i0) (i2 := i2) (fl := fl) (gl := gl) hd hsame hr hf hT h1 h3 (Nat.succ_pos m) hq1 T (le_refl _)
    rw [if_neg (by omega)] at hq'
    have hp : ∀ kw, KwFor sd bd kw → ∀ w, Calm same w → Like (fun p out w' => Stage N same T T ((m + 1 : Nat) : Int) ((m + 1 : Nat) : Int) f out w' ∧
        Holds N T T T ((m + 1 : Nat) : Int) ((m + 1 : Nat) : Int) f p out ∧ Latents N T T ((m + 1 : Nat) : Int) ((m + 1 : Nat) : Int) f p.pos p.what out.trace)
        (eval (stepNode fresh i3 gl N T T (m + 1) (.prog i2 (encDigitProg N)) q') (.dict kvs) kw w) (sweepsLaw φ N f T (m + 1)) := by
      intro kw hkw w hw
      unfold stepNode
      rw [eval_afterFirst]
      have : sweepsLaw φ N f T (m + 1) =
          (((sweepsLaw φ N f T m).bind fun p => .ret (reweigh φ p)).bind fun p => stepsLaw φ N f T p T).bind (digitLaw N f T) := by
        rw [Comp.bind_assoc, Comp.bind_assoc]; rfl
      rw [this]
      refine Apg.Like.bind (hq' _ ((hkw.sub _).sub _) w hw) ?_
      rintro p o1 w1 ⟨hR, hH⟩
      exact like_digitStep hd hf hT h2 h3 hpos (Nat.succ_pos m) hkw.1 hR hH
    have e2 : gibbsSweep fresh (apgObjs N i0 i1 i2 i3 fl gl r) T S q (m + 1) =
        .ok (if m + 1 ≠ S then mkResample fresh r (stepNode fresh i3 gl N T T (m + 1) (.prog i2 (encDigitProg N)) q') none .none false
          else stepNode fresh i3 gl N T T (m + 1) (.prog i2 (encDigitProg N)) q') := by
      unfold gibbsSweep
      simp only [e', bind, Except.bind]
      rfl
    refine ⟨if m + 1 ≠ S then mkResample fresh r (stepNode fresh i3 gl N T T (m + 1) (.prog i2 (encDigitProg N)) q') none .none false
      else stepNode fresh i3 gl N T T (m + 1) (.prog i2 (encDigitProg N)) q', ?_, fun h kw hkw w hw => ?_, fun h => ?_⟩
    · rw [List.range'_concat, List.foldlM_append, e]
      simp only [bind, Except.bind, List.foldlM_cons, List.foldlM_nil, Nat.one_mul]
      rw [Nat.add_comm 1 m, e2]
      rfl
    · rw [if_pos h]
      exact like_resample hsame hr hkw rfl ((hp _ hkw w hw).mono fun _ _ _ h => ⟨h.1, h.2.1⟩)
    · rw [if_neg (by simpa using h)]
      exact hp

include hd hsame hr hf hT h1 h2 h3 in
theorem like_gibbs (hpos : 0 < T) (S : Nat) :
    ∃ q, gibbsSweeps fresh (apgObjs N i0 i1 i2 i3 fl gl r) S T = .ok q ∧
      ∀ kw, KwFor sd bd kw → ∀ w, Calm same w →
        Like (fun p out w' => Stage N same T T S S f out w' ∧ Holds N T T T S S f p out ∧ Latents N T T S S f p.pos p.what out.trace)
          (eval q (.dict kvs) kw w) (sweepsLaw φ N f T S) := by
  obtain ⟨q0, e0, h0⟩ := like_sweeps (i0 := i0) (fl := fl) (gl := gl) hd hsame hr hf hT h1 h2 h3 hpos S
  obtain ⟨q, e, -, h⟩ := h0 S (le_refl _)
  refine ⟨q, ?_, h rfl⟩
  unfold gibbsSweeps
  rw [e0]
  exact e

end whole
end Verif
