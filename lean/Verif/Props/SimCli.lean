import Verif.Model.SimMain
import Verif.Props.Cli
/-
C102: what the options of the simulator set.
-/
namespace Verif
namespace SimMain
open Cli (pyInt filter_singleton)

/-! ### Spec -/

/-- The options. -/
abbrev options : List String :=
  ["help", "num_instances", "saving_path", "timesteps", "num_objects", "dv", "frame_size", "shape_size", "padding_size", "blacklist_shapes",
    "shape_dir", "chunk_size"]

/-- The options that want an integer. -/
abbrev intOptions : List String := ["num_instances", "timesteps", "num_objects", "frame_size", "shape_size", "padding_size", "chunk_size"]

/-- The option written `o` is the option `n`: its name, or the beginning of its name and of no other. -/
def Means (o n : String) : Prop :=
  n ∈ options ∧ (o = n ∨ (o ∉ options ∧ o.toList <+: n.toList ∧ ∀ m ∈ options, o.toList <+: m.toList → m = n))

/-- `v` is the last value given for the option `n`. -/
def LastGiven (opts : List (String × String)) (n v : String) : Prop :=
  ∃ pre o post, opts = pre ++ (o, v) :: post ∧ Means o n ∧ ∀ p ∈ post, ¬ Means p.1 n

/-- The option `n` is not given. -/
def NotGiven (opts : List (String × String)) (n : String) : Prop := ∀ p ∈ opts, ¬ Means p.1 n

/-- `x` is the value of the option `n`: the last value given, converted, or the default. -/
def OptIs {β : Type} (opts : List (String × String)) (n : String) (conv : String → Option β) (dflt x : β) : Prop :=
  (∀ v, LastGiven opts n v → conv v = some x) ∧ (NotGiven opts n → x = dflt)

/-! ### Options -/

variable {F : Type} {float : String → Option F}

theorem resolve_iff (o n : String) : resolveOption o = some n ↔ Means o n := by
  have he : options = optionNames := rfl
  unfold resolveOption Means
  rw [he]
  by_cases h : o ∈ optionNames
  · rw [if_pos h]
    constructor
    · rintro ⟨⟩; exact ⟨h, .inl rfl⟩
    · rintro ⟨_, rfl | ⟨h', _⟩⟩
      · rfl
      · exact absurd h h'
  · rw [if_neg h]
    have hnd : optionNames.Nodup := by decide
    have key := fun n => filter_singleton (p := fun n : String => o.toList.isPrefixOf n.toList) hnd n
    constructor
    · intro h'
      split at h'
      · rename_i m hm
        cases h'
        obtain ⟨h1, h2, h3⟩ := (key n).1 hm
        exact ⟨h1, .inr ⟨h, by simpa using h2, fun m hm hp => h3 m hm (by simpa using hp)⟩⟩
      · cases h'
    · rintro ⟨h1, rfl | ⟨_, h2, h3⟩⟩
      · exact absurd h1 h
      · rw [(key n).2 ⟨h1, by simpa using h2, fun m hm hp => h3 m hm (by simpa using hp)⟩]

/-- An option: how a value is converted and where it is stored. -/
structure Field (float : String → Option F) (β : Type) (n : String) (conv : String → Option β) (get : Args F → β) : Prop where
  here : ∀ a v a', store float a n v = some a' → conv v = some (get a')
  other : ∀ a m v a', m ≠ n → store float a m v = some a' → get a' = get a

theorem store_cases {a : Args F} {m v : String} {a' : Args F} (h : store float a m v = some a') :
    (m = "num_instances" ∧ ∃ x, pyInt v = some x ∧ a' = { a with numInstances := x }) ∨
    (m = "saving_path" ∧ ∃ x, some v = some x ∧ a' = { a with savingPath := x }) ∨
    (m = "timesteps" ∧ ∃ x, pyInt v = some x ∧ a' = { a with timesteps := x }) ∨
    (m = "num_objects" ∧ ∃ x, pyInt v = some x ∧ a' = { a with numObjects := x }) ∨
    (m = "dv" ∧ ∃ x, float v = some x ∧ a' = { a with dv := x }) ∨
    (m = "frame_size" ∧ ∃ x, pyInt v = some x ∧ a' = { a with frameSize := x }) ∨
    (m = "shape_size" ∧ ∃ x, pyInt v = some x ∧ a' = { a with shapeSize := x }) ∨
    (m = "padding_size" ∧ ∃ x, pyInt v = some x ∧ a' = { a with paddingSize := x }) ∨
    (m = "blacklist_shapes" ∧ ∃ x, some v = some x ∧ a' = { a with blacklistShapes := x }) ∨
    (m = "shape_dir" ∧ ∃ x, some v = some x ∧ a' = { a with shapeDir := x }) ∨
    (m = "chunk_size" ∧ ∃ x, pyInt v = some x ∧ a' = { a with chunkSize := x }) := by
  unfold store at h
  split at h <;> simp only [Option.map_eq_some_iff, Option.some.injEq, reduceCtorEq] at h
  all_goals first
    | (obtain ⟨x, h1, h2⟩ := h; simp [h1, ← h2])
    | simp [← h]

theorem field_numInstances : Field float Int "num_instances" pyInt Args.numInstances where
  here a v a' h := by
    rcases store_cases h with
      ⟨hm, x, h1, rfl⟩ | ⟨hm, x, h1, rfl⟩ | ⟨hm, x, h1, rfl⟩ | ⟨hm, x, h1, rfl⟩ | ⟨hm, x, h1, rfl⟩ | ⟨hm, x, h1, rfl⟩ | ⟨hm, x, h1, rfl⟩ | ⟨hm, x, h1, rfl⟩ | ⟨hm, x, h1, rfl⟩ | ⟨hm, x, h1, rfl⟩ | ⟨hm, x, h1, rfl⟩ <;> first | exact h1 | simp at hm
  other a m v a' hne h := by
    rcases store_cases h with
      ⟨hm, x, h1, rfl⟩ | ⟨hm, x, h1, rfl⟩ | ⟨hm, x, h1, rfl⟩ | ⟨hm, x, h1, rfl⟩ | ⟨hm, x, h1, rfl⟩ | ⟨hm, x, h1, rfl⟩ | ⟨hm, x, h1, rfl⟩ | ⟨hm, x, h1, rfl⟩ | ⟨hm, x, h1, rfl⟩ | ⟨hm, x, h1, rfl⟩ | ⟨hm, x, h1, rfl⟩ <;> first | rfl | exact absurd hm hne
theorem field_savingPath : Field float String "saving_path" some Args.savingPath where
  here a v a' h := by
    rcases store_cases h with
      ⟨hm, x, h1, rfl⟩ | ⟨hm, x, h1, rfl⟩ | ⟨hm, x, h1, rfl⟩ | ⟨hm, x, h1, rfl⟩ | ⟨hm, x, h1, rfl⟩ | ⟨hm, x, h1, rfl⟩ | ⟨hm, x, h1, rfl⟩ | ⟨hm, x, h1, rfl⟩ | ⟨hm, x, h1, rfl⟩ | ⟨hm, x, h1, rfl⟩ | ⟨hm, x, h1, rfl⟩ <;> first | exact h1 | simp at hm
  other a m v a' hne h := by
    rcases store_cases h with
      ⟨hm, x, h1, rfl⟩ | ⟨hm, x, h1, rfl⟩ | ⟨hm, x, h1, rfl⟩ | ⟨hm, x, h1, rfl⟩ | ⟨hm, x, h1, rfl⟩ | ⟨hm, x, h1, rfl⟩ | ⟨hm, x, h1, rfl⟩ | ⟨hm, x, h1, rfl⟩ | ⟨hm, x, h1, rfl⟩ | ⟨hm, x, h1, rfl⟩ | ⟨hm, x, h1, rfl⟩ <;> first | rfl | exact absurd hm hne
theorem field_timesteps : Field float Int "timesteps" pyInt Args.timesteps where
  here a v a' h := by
    rcases store_cases h with
      ⟨hm, x, h1, rfl⟩ | ⟨hm, x, h1, rfl⟩ | ⟨hm, x, h1, rfl⟩ | ⟨hm, x, h1, rfl⟩ | ⟨hm, x, h1, rfl⟩ | ⟨hm, x, h1, rfl⟩ | ⟨hm, x, h1, rfl⟩ | ⟨hm, x, h1, rfl⟩ | ⟨hm, x, h1, rfl⟩ | ⟨hm, x, h1, rfl⟩ | ⟨hm, x, h1, rfl⟩ <;> first | exact h1 | simp at hm
  other a m v a' hne h := by
    rcases store_cases h with
      ⟨hm, x, h1, rfl⟩ | ⟨hm, x, h1, rfl⟩ | ⟨hm, x, h1, rfl⟩ | ⟨hm, x, h1, rfl⟩ | ⟨hm, x, h1, rfl⟩ | ⟨hm, x, h1, rfl⟩ | ⟨hm, x, h1, rfl⟩ | ⟨hm, x, h1, rfl⟩ | ⟨hm, x, h1, rfl⟩ | ⟨hm, x, h1, rfl⟩ | ⟨hm, x, h1, rfl⟩ <;> first | rfl | exact absurd hm hne
theorem field_numObjects : Field float Int "num_objects" pyInt Args.numObjects where
  here a v a' h := by
    rcases store_cases h with
      ⟨hm, x, h1, rfl⟩ | ⟨hm, x, h1, rfl⟩ | ⟨hm, x, h1, rfl⟩ | ⟨hm, x, h1, rfl⟩ | ⟨hm, x, h1, rfl⟩ | ⟨hm, x, h1, rfl⟩ | ⟨hm, x, h1, rfl⟩ | ⟨hm, x, h1, rfl⟩ | ⟨hm, x, h1, rfl⟩ | ⟨hm, x, h1, rfl⟩ | ⟨hm, x, h1, rfl⟩ <;> first | exact h1 | simp at hm
  other a m v a' hne h := by
    rcases store_cases h with
      ⟨hm, x, h1, rfl⟩ | ⟨hm, x, h1, rfl⟩ | ⟨hm, x, h1, rfl⟩ | ⟨hm, x, h1, rfl⟩ | ⟨hm, x, h1, rfl⟩ | ⟨hm, x, h1, rfl⟩ | ⟨hm, x, h1, rfl⟩ | ⟨hm, x, h1, rfl⟩ | ⟨hm, x, h1, rfl⟩ | ⟨hm, x, h1, rfl⟩ | ⟨hm, x, h1, rfl⟩ <;> first | rfl | exact absurd hm hne
theorem field_dv : Field float F "dv" float Args.dv where
  here a v a' h := by
    rcases store_cases h with
      ⟨hm, x, h1, rfl⟩ | ⟨hm, x, h1, rfl⟩ | ⟨hm, x, h1, rfl⟩ | ⟨hm, x, h1, rfl⟩ | ⟨hm, x, h1, rfl⟩ | ⟨hm, x, h1, rfl⟩ | ⟨hm, x, h1, rfl⟩ | ⟨hm, x, h1, rfl⟩ | ⟨hm, x, h1, rfl⟩ | ⟨hm, x, h1, rfl⟩ | ⟨hm, x, h1, rfl⟩ <;> first | exact h1 | simp at hm
  other a m v a' hne h := by
    rcases store_cases h with
      ⟨hm, x, h1, rfl⟩ | ⟨hm, x, h1, rfl⟩ | ⟨hm, x, h1, rfl⟩ | ⟨hm, x, h1, rfl⟩ | ⟨hm, x, h1, rfl⟩ | ⟨hm, x, h1, rfl⟩ | ⟨hm, x, h1, rfl⟩ | ⟨hm, x, h1, rfl⟩ | ⟨hm, x, h1, rfl⟩ | ⟨hm, x, h1, rfl⟩ | ⟨hm, x, h1, rfl⟩ <;> first | rfl | exact absurd hm hne
theorem field_frameSize : Field float Int "frame_size" pyInt Args.frameSize where
  here a v a' h := by
    rcases store_cases h with
      ⟨hm, x, h1, rfl⟩ | ⟨hm, x, h1, rfl⟩ | ⟨hm, x, h1, rfl⟩ | ⟨hm, x, h1, rfl⟩ | ⟨hm, x, h1, rfl⟩ | ⟨hm, x, h1, rfl⟩ | ⟨hm, x, h1, rfl⟩ | ⟨hm, x, h1, rfl⟩ | ⟨hm, x, h1, rfl⟩ | ⟨hm, x, h1, rfl⟩ | ⟨hm, x, h1, rfl⟩ <;> first | exact h1 | simp at hm
  other a m v a' hne h := by
    rcases store_cases h with
      ⟨hm, x, h1, rfl⟩ | ⟨hm, x, h1, rfl⟩ | ⟨hm, x, h1, rfl⟩ | ⟨hm, x, h1, rfl⟩ | ⟨hm, x, h1, rfl⟩ | ⟨hm, x, h1, rfl⟩ | ⟨hm, x, h1, rfl⟩ | ⟨hm, x, h1, rfl⟩ | ⟨hm, x, h1, rfl⟩ | ⟨hm, x, h1, rfl⟩ | ⟨hm, x, h1, rfl⟩ <;> first | rfl | exact absurd hm hne
theorem field_shapeSize : Field float Int "shape_size" pyInt Args.shapeSize where
  here a v a' h := by
    rcases store_cases h with
      ⟨hm, x, h1, rfl⟩ | ⟨hm, x, h1, rfl⟩ | ⟨hm, x, h1, rfl⟩ | ⟨hm, x, h1, rfl⟩ | ⟨hm, x, h1, rfl⟩ | ⟨hm, x, h1, rfl⟩ | ⟨hm, x, h1, rfl⟩ | ⟨hm, x, h1, rfl⟩ | ⟨hm, x, h1, rfl⟩ | ⟨hm, x, h1, rfl⟩ | ⟨hm, x, h1, rfl⟩ <;> first | exact h1 | simp at hm
  other a m v a' hne h := by
    rcases store_cases h with
      ⟨hm, x, h1, rfl⟩ | ⟨hm, x, h1, rfl⟩ | ⟨hm, x, h1, rfl⟩ | ⟨hm, x, h1, rfl⟩ | ⟨hm, x, h1, rfl⟩ | ⟨hm, x, h1, rfl⟩ | ⟨hm, x, h1, rfl⟩ | ⟨hm, x, h1, rfl⟩ | ⟨hm, x, h1, rfl⟩ | ⟨hm, x, h1, rfl⟩ | ⟨hm, x, h1, rfl⟩ <;> first | rfl | exact absurd hm hne
theorem field_paddingSize : Field float Int "padding_size" pyInt Args.paddingSize where
  here a v a' h := by
    rcases store_cases h with
      ⟨hm, x, h1, rfl⟩ | ⟨hm, x, h1, rfl⟩ | ⟨hm, x, h1, rfl⟩ | ⟨hm, x, h1, rfl⟩ | ⟨hm, x, h1, rfl⟩ | ⟨hm, x, h1, rfl⟩ | ⟨hm, x, h1, rfl⟩ | ⟨hm, x, h1, rfl⟩ | ⟨hm, x, h1, rfl⟩ | ⟨hm, x, h1, rfl⟩ | ⟨hm, x, h1, rfl⟩ <;> first | exact h1 | simp at hm
  other a m v a' hne h := by
    rcases store_cases h with
      ⟨hm, x, h1, rfl⟩ | ⟨hm, x, h1, rfl⟩ | ⟨hm, x, h1, rfl⟩ | ⟨hm, x, h1, rfl⟩ | ⟨hm, x, h1, rfl⟩ | ⟨hm, x, h1, rfl⟩ | ⟨hm, x, h1, rfl⟩ | ⟨hm, x, h1, rfl⟩ | ⟨hm, x, h1, rfl⟩ | ⟨hm, x, h1, rfl⟩ | ⟨hm, x, h1, rfl⟩ <;> first | rfl | exact absurd hm hne
theorem field_blacklistShapes : Field float String "blacklist_shapes" some Args.blacklistShapes where
  here a v a' h := by
    rcases store_cases h with
      ⟨hm, x, h1, rfl⟩ | ⟨hm, x, h1, rfl⟩ | ⟨hm, x, h1, rfl⟩ | ⟨hm, x, h1, rfl⟩ | ⟨hm, x, h1, rfl⟩ | ⟨hm, x, h1, rfl⟩ | ⟨hm, x, h1, rfl⟩ | ⟨hm, x, h1, rfl⟩ | ⟨hm, x, h1, rfl⟩ | ⟨hm, x, h1, rfl⟩ | ⟨hm, x, h1, rfl⟩ <;> first | exact h1 | simp at hm
  other a m v a' hne h := by
    rcases store_cases h with
      ⟨hm, x, h1, rfl⟩ | ⟨hm, x, h1, rfl⟩ | ⟨hm, x, h1, rfl⟩ | ⟨hm, x, h1, rfl⟩ | ⟨hm, x, h1, rfl⟩ | ⟨hm, x, h1, rfl⟩ | ⟨hm, x, h1, rfl⟩ | ⟨hm, x, h1, rfl⟩ | ⟨hm, x, h1, rfl⟩ | ⟨hm, x, h1, rfl⟩ | ⟨hm, x, h1, rfl⟩ <;> first | rfl | exact absurd hm hne
theorem field_shapeDir : Field float String "shape_dir" some Args.shapeDir where
  here a v a' h := by
    rcases store_cases h with
      ⟨hm, x, h1, rfl⟩ | ⟨hm, x, h1, rfl⟩ | ⟨hm, x, h1, rfl⟩ | ⟨hm, x, h1, rfl⟩ | ⟨hm, x, h1, rfl⟩ | ⟨hm, x, h1, rfl⟩ | ⟨hm, x, h1, rfl⟩ | ⟨hm, x, h1, rfl⟩ | ⟨hm, x, h1, rfl⟩ | ⟨hm, x, h1, rfl⟩ | ⟨hm, x, h1, rfl⟩ <;> first | exact h1 | simp at hm
  other a m v a' hne h := by
    rcases store_cases h with
      ⟨hm, x, h1, rfl⟩ | ⟨hm, x, h1, rfl⟩ | ⟨hm, x, h1, rfl⟩ | ⟨hm, x, h1, rfl⟩ | ⟨hm, x, h1, rfl⟩ | ⟨hm, x, h1, rfl⟩ | ⟨hm, x, h1, rfl⟩ | ⟨hm, x, h1, rfl⟩ | ⟨hm, x, h1, rfl⟩ | ⟨hm, x, h1, rfl⟩ | ⟨hm, x, h1, rfl⟩ <;> first | rfl | exact absurd hm hne
theorem field_chunkSize : Field float Int "chunk_size" pyInt Args.chunkSize where
  here a v a' h := by
    rcases store_cases h with
      ⟨hm, x, h1, rfl⟩ | ⟨hm, x, h1, rfl⟩ | ⟨hm, x, h1, rfl⟩ | ⟨hm, x, h1, rfl⟩ | ⟨hm, x, h1, rfl⟩ | ⟨hm, x, h1, rfl⟩ | ⟨hm, x, h1, rfl⟩ | ⟨hm, x, h1, rfl⟩ | ⟨hm, x, h1, rfl⟩ | ⟨hm, x, h1, rfl⟩ | ⟨hm, x, h1, rfl⟩ <;> first | exact h1 | simp at hm
  other a m v a' hne h := by
    rcases store_cases h with
      ⟨hm, x, h1, rfl⟩ | ⟨hm, x, h1, rfl⟩ | ⟨hm, x, h1, rfl⟩ | ⟨hm, x, h1, rfl⟩ | ⟨hm, x, h1, rfl⟩ | ⟨hm, x, h1, rfl⟩ | ⟨hm, x, h1, rfl⟩ | ⟨hm, x, h1, rfl⟩ | ⟨hm, x, h1, rfl⟩ | ⟨hm, x, h1, rfl⟩ | ⟨hm, x, h1, rfl⟩ <;> first | rfl | exact absurd hm hne

theorem parse_cons {a b : Args F} {o v : String} {opts : List (String × String)} (h : parseArgs float a ((o, v) :: opts) = some b) :
    ∃ n a', Means o n ∧ store float a n v = some a' ∧ parseArgs float a' opts = some b := by
  simp only [parseArgs, Option.bind_eq_some_iff] at h
  obtain ⟨n, h1, a', h2, h3⟩ := h
  exact ⟨n, a', (resolve_iff o n).1 h1, h2, h3⟩

theorem means_unique {o n m : String} (h : Means o n) (h' : Means o m) : n = m := by
  have h1 := (resolve_iff o n).2 h
  rw [(resolve_iff o m).2 h'] at h1
  exact (Option.some.inj h1).symm

theorem Field.notGiven {β : Type} {n : String} {conv : String → Option β} {get : Args F → β} (hf : Field float β n conv get)
    {opts : List (String × String)} : ∀ {a b : Args F}, parseArgs float a opts = some b → NotGiven opts n → get b = get a := by
  induction opts with
  | nil => intro a b h _; cases h; rfl
  | cons p opts ih =>
    intro a b h hn
    obtain ⟨m, a', h1, h2, h3⟩ := parse_cons (o := p.1) (v := p.2) h
    rw [ih h3 fun q hq => hn q (by simp [hq])]
    refine hf.other a m p.2 a' ?_ h2
    rintro rfl
    exact hn p (by simp) h1

theorem Field.optIs {β : Type} {n : String} {conv : String → Option β} {get : Args F → β} (hf : Field float β n conv get)
    {opts : List (String × String)} {a b : Args F} (h : parseArgs float a opts = some b) : OptIs opts n conv (get a) (get b) := by
  refine ⟨?_, hf.notGiven h⟩
  rintro v ⟨pre, o, post, rfl, ho, hpost⟩
  induction pre generalizing a with
  | nil =>
    obtain ⟨m, a', h1, h2, h3⟩ := parse_cons h
    cases means_unique h1 ho
    rw [hf.here _ _ _ h2, hf.notGiven h3 hpost]
  | cons p pre ih =>
    obtain ⟨m, a', h1, h2, h3⟩ := parse_cons (o := p.1) (v := p.2) h
    exact ih h3

/-- C102. The value of every option is the last one given, converted, or the default. -/
theorem C102_options (dv : F) (opts : List (String × String)) (a : Args F) (h : parseArgs float (defaults dv) opts = some a) :
    OptIs opts "num_instances" pyInt 10000 a.numInstances ∧
    OptIs opts "saving_path" some "video/" a.savingPath ∧
    OptIs opts "timesteps" pyInt 10 a.timesteps ∧
    OptIs opts "num_objects" pyInt 3 a.numObjects ∧
    OptIs opts "dv" float dv a.dv ∧
    OptIs opts "frame_size" pyInt 96 a.frameSize ∧
    OptIs opts "shape_size" pyInt 20 a.shapeSize ∧
    OptIs opts "padding_size" pyInt 4 a.paddingSize ∧
    OptIs opts "blacklist_shapes" some "[]" a.blacklistShapes ∧
    OptIs opts "shape_dir" some "shapes/" a.shapeDir ∧
    OptIs opts "chunk_size" pyInt 1000 a.chunkSize :=
  ⟨field_numInstances.optIs h,
    field_savingPath.optIs h,
    field_timesteps.optIs h,
    field_numObjects.optIs h,
    field_dv.optIs h,
    field_frameSize.optIs h,
    field_shapeSize.optIs h,
    field_paddingSize.optIs h,
    field_blacklistShapes.optIs h,
    field_shapeDir.optIs h,
    field_chunkSize.optIs h⟩

theorem store_none {a : Args F} {m v : String} (hm : m ∈ optionNames) : store float a m v = none ↔
    m = "help" ∨ (m ∈ intOptions ∧ pyInt v = none) ∨ (m = "dv" ∧ float v = none) := by
  unfold store
  split <;> simp
  simp only [optionNames, List.mem_cons, List.not_mem_nil, or_false] at hm
  tauto

/-- C102. The parser exits exactly if some option is unknown or ambiguous, asks for help, or wants a number and is given something else. -/
theorem C102_exits (opts : List (String × String)) (a : Args F) :
    parseArgs float a opts = none ↔ ∃ p ∈ opts, (∀ n, ¬ Means p.1 n) ∨ Means p.1 "help" ∨
      (∃ n ∈ intOptions, Means p.1 n ∧ pyInt p.2 = none) ∨ (Means p.1 "dv" ∧ float p.2 = none) := by
  induction opts generalizing a with
  | nil => simp [parseArgs]
  | cons p opts ih =>
    have hp : parseArgs float a (p :: opts) = (resolveOption p.1).bind fun n => (store float a n p.2).bind fun a' => parseArgs float a' opts := rfl
    rw [hp]
    rw [List.exists_mem_cons_iff]
    cases hr : resolveOption p.1 with
    | none =>
      simp only [Option.bind_none, true_iff]
      exact .inl (.inl fun n hn => by rw [(resolve_iff p.1 n).2 hn] at hr; cases hr)
    | some n =>
      have hm := (resolve_iff p.1 n).1 hr
      have e : ∀ m, Means p.1 m ↔ m = n := fun m => ⟨fun h => means_unique h hm, by rintro rfl; exact hm⟩
      simp only [Option.bind_some, e]
      have hno : (∀ m, ¬ m = n) ↔ False := ⟨fun h => h n rfl, False.elim⟩
      rw [hno, false_or]
      have hiff : store float a n p.2 = none ↔ "help" = n ∨ (∃ m ∈ intOptions, m = n ∧ pyInt p.2 = none) ∨ ("dv" = n ∧ float p.2 = none) := by
        rw [store_none hm.1]
        constructor
        · rintro (rfl | ⟨h1, h2⟩ | ⟨rfl, h2⟩)
          · exact .inl rfl
          · exact .inr (.inl ⟨n, h1, rfl, h2⟩)
          · exact .inr (.inr ⟨rfl, h2⟩)
        · rintro (h | ⟨m, h1, rfl, h2⟩ | ⟨rfl, h2⟩)
          · exact .inl h.symm
          · exact .inr (.inl ⟨h1, h2⟩)
          · exact .inr (.inr ⟨rfl, h2⟩)
      rw [← hiff]
      cases hs : store float a n p.2 with
      | none => simp
      | some a' => simp [ih]

example : parseArgs (fun _ => none) (defaults 2) [("num_i", "50"), ("chunk", "8"), ("timesteps", "4"), ("timesteps", "-3")] =
    some { defaults 2 with numInstances := 50, chunkSize := 8, timesteps := -3 } := by decide +kernel
example : parseArgs (fun _ => some 1) (defaults 2) [("shape", "1")] = none := by decide +kernel

end SimMain
end Verif
