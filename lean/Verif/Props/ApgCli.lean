import Verif.Model.ApgCli
import Verif.Props.Cli
/-
C77: what a command line of the amortized Gibbs experiment runs, and what its test does.
-/
namespace Verif
namespace ApgCli
open Cli (pyInt pyBool flagText pyBool_flag filter_singleton)

/-! ### Spec -/

/-- The options. -/
abbrev options : List String :=
  ["help", "data_dir", "frame_pixels", "shape_pixels", "timesteps", "num_objects", "device", "num_epochs", "lr", "batch_size", "budget",
    "num_sweeps", "num_hidden_digit", "num_hidden_coor", "z_where_dim", "z_what_dim", "test", "smoketest", "iterations", "seed"]

/-- The options that want an integer. -/
abbrev intOptions : List String :=
  ["frame_pixels", "shape_pixels", "timesteps", "num_objects", "num_epochs", "batch_size", "budget", "num_sweeps", "num_hidden_digit",
    "num_hidden_coor", "z_where_dim", "z_what_dim", "iterations", "seed"]

/-- The option written `o` is the option `n`: its name, or the beginning of its name and of no other. -/
def Means (o n : String) : Prop :=
  n ∈ options ∧ (o = n ∨ (o ∉ options ∧ o.toList <+: n.toList ∧ ∀ m ∈ options, o.toList <+: m.toList → m = n))

/-- `v` is the last value given for the option `n`. -/
def LastGiven (opts : List (String × String)) (n v : String) : Prop :=
  ∃ pre o post, opts = pre ++ (o, v) :: post ∧ Means o n ∧ ∀ p ∈ post, ¬ Means p.1 n

/-- The option `n` is not given. -/
def NotGiven (opts : List (String × String)) (n : String) : Prop := ∀ p ∈ opts, ¬ Means p.1 n

/-- `x` is the value of the option `n`: the last value given, converted, or the default. -/
def OptIs {β : Type} (opts : List (String × String)) (n : String) (conv : String → Option β) (dflt x : β) : Prop :=
  (∀ v, LastGiven opts n v → conv v = some x) ∧ (NotGiven opts n → x = dflt)

/-- `f` is the first file of a listing whose name ends with ".pt". -/
def FirstData (files : List String) (f : String) : Prop :=
  ∃ pre post, files = pre ++ f :: post ∧ ".pt".toList <:+ f.toList ∧ ∀ g ∈ pre, ¬ ".pt".toList <:+ g.toList

/-! ### Options -/

variable {F : Type} {float : String → Option F}

theorem resolve_iff (o n : String) : resolve o = some n ↔ Means o n := by
  have he : options = optionNames := rfl
  unfold resolve Means
  rw [he]
  by_cases h : o ∈ optionNames
  · rw [if_pos h]
    constructor
    · rintro ⟨⟩; exact ⟨h, .inl rfl⟩
    · rintro ⟨_, rfl | ⟨h', _⟩⟩
      · rfl
      · exact absurd h h'
  · rw [if_neg h]
    have hnd : optionNames.Nodup := by decide
    have key := fun n => filter_singleton (p := fun n : String => o.toList.isPrefixOf n.toList) hnd n
    constructor
    · intro h'
      split at h'
      · rename_i m hm
        cases h'
        obtain ⟨h1, h2, h3⟩ := (key n).1 hm
        exact ⟨h1, .inr ⟨h, by simpa using h2, fun m hm hp => h3 m hm (by simpa using hp)⟩⟩
      · cases h'
    · rintro ⟨h1, rfl | ⟨_, h2, h3⟩⟩
      · exact absurd h1 h
      · rw [(key n).2 ⟨h1, by simpa using h2, fun m hm hp => h3 m hm (by simpa using hp)⟩]

/-- An option: how a value is converted and where it is stored. -/
structure Field (float : String → Option F) (β : Type) (n : String) (conv : String → Option β) (get : Args F → β) : Prop where
  here : ∀ a v a', store float a n v = some a' → conv v = some (get a')
  other : ∀ a m v a', m ≠ n → store float a m v = some a' → get a' = get a

theorem store_cases {a : Args F} {m v : String} {a' : Args F} (h : store float a m v = some a') :
    (m = "data_dir" ∧ ∃ x, some v = some x ∧ a' = { a with dataDir := x }) ∨
    (m = "frame_pixels" ∧ ∃ x, pyInt v = some x ∧ a' = { a with framePixels := x }) ∨
    (m = "shape_pixels" ∧ ∃ x, pyInt v = some x ∧ a' = { a with shapePixels := x }) ∨
    (m = "timesteps" ∧ ∃ x, pyInt v = some x ∧ a' = { a with timesteps := x }) ∨
    (m = "num_objects" ∧ ∃ x, pyInt v = some x ∧ a' = { a with numObjects := x }) ∨
    (m = "device" ∧ ∃ x, some v = some x ∧ a' = { a with device := x }) ∨
    (m = "num_epochs" ∧ ∃ x, pyInt v = some x ∧ a' = { a with numEpochs := x }) ∨
    (m = "lr" ∧ ∃ x, float v = some x ∧ a' = { a with lr := x }) ∨
    (m = "batch_size" ∧ ∃ x, pyInt v = some x ∧ a' = { a with batchSize := x }) ∨
    (m = "budget" ∧ ∃ x, pyInt v = some x ∧ a' = { a with budget := x }) ∨
    (m = "num_sweeps" ∧ ∃ x, pyInt v = some x ∧ a' = { a with numSweeps := x }) ∨
    (m = "num_hidden_digit" ∧ ∃ x, pyInt v = some x ∧ a' = { a with numHiddenDigit := x }) ∨
    (m = "num_hidden_coor" ∧ ∃ x, pyInt v = some x ∧ a' = { a with numHiddenCoor := x }) ∨
    (m = "z_where_dim" ∧ ∃ x, pyInt v = some x ∧ a' = { a with zWhereDim := x }) ∨
    (m = "z_what_dim" ∧ ∃ x, pyInt v = some x ∧ a' = { a with zWhatDim := x }) ∨
    (m = "test" ∧ ∃ x, flagText v = some x ∧ a' = { a with test := x }) ∨
    (m = "smoketest" ∧ ∃ x, flagText v = some x ∧ a' = { a with smoketest := x }) ∨
    (m = "iterations" ∧ ∃ x, pyInt v = some x ∧ a' = { a with iterations := x }) ∨
    (m = "seed" ∧ ∃ x, pyInt v = some x ∧ a' = { a with seed := x }) := by
  unfold store at h
  split at h <;> simp only [Option.map_eq_some_iff, Option.some.injEq, reduceCtorEq] at h
  all_goals first
    | (obtain ⟨x, h1, h2⟩ := h; simp [h1, ← h2])
    | simp [← h, pyBool_flag]

theorem field_dataDir : Field float String "data_dir" some Args.dataDir where
  here a v a' h := by
    rcases store_cases h with
      ⟨hm, x, h1, rfl⟩ | ⟨hm, x, h1, rfl⟩ | ⟨hm, x, h1, rfl⟩ | ⟨hm, x, h1, rfl⟩ | ⟨hm, x, h1, rfl⟩ | ⟨hm, x, h1, rfl⟩ | ⟨hm, x, h1, rfl⟩ | ⟨hm, x, h1, rfl⟩ | ⟨hm, x, h1, rfl⟩ | ⟨hm, x, h1, rfl⟩ | ⟨hm, x, h1, rfl⟩ | ⟨hm, x, h1, rfl⟩ | ⟨hm, x, h1, rfl⟩ | ⟨hm, x, h1, rfl⟩ | ⟨hm, x, h1, rfl⟩ | ⟨hm, x, h1, rfl⟩ | ⟨hm, x, h1, rfl⟩ | ⟨hm, x, h1, rfl⟩ | ⟨hm, x, h1, rfl⟩ <;> first | exact h1 | simp at hm
  other a m v a' hne h := by
    rcases store_cases h with
      ⟨hm, x, h1, rfl⟩ | ⟨hm, x, h1, rfl⟩ | ⟨hm, x, h1, rfl⟩ | ⟨hm, x, h1, rfl⟩ | ⟨hm, x, h1, rfl⟩ | ⟨hm, x, h1, rfl⟩ | ⟨hm, x, h1, rfl⟩ | ⟨hm, x, h1, rfl⟩ | ⟨hm, x, h1, rfl⟩ | ⟨hm, x, h1, rfl⟩ | ⟨hm, x, h1, rfl⟩ | ⟨hm, x, h1, rfl⟩ | ⟨hm, x, h1, rfl⟩ | ⟨hm, x, h1, rfl⟩ | ⟨hm, x, h1, rfl⟩ | ⟨hm, x, h1, rfl⟩ | ⟨hm, x, h1, rfl⟩ | ⟨hm, x, h1, rfl⟩ | ⟨hm, x, h1, rfl⟩ <;> first | rfl | exact absurd hm hne
theorem field_framePixels : Field float Int "frame_pixels" pyInt Args.framePixels where
  here a v a' h := by
    rcases store_cases h with
      ⟨hm, x, h1, rfl⟩ | ⟨hm, x, h1, rfl⟩ | ⟨hm, x, h1, rfl⟩ | ⟨hm, x, h1, rfl⟩ | ⟨hm, x, h1, rfl⟩ | ⟨hm, x, h1, rfl⟩ | ⟨hm, x, h1, rfl⟩ | ⟨hm, x, h1, rfl⟩ | ⟨hm, x, h1, rfl⟩ | ⟨hm, x, h1, rfl⟩ | ⟨hm, x, h1, rfl⟩ | ⟨hm, x, h1, rfl⟩ | ⟨hm, x, h1, rfl⟩ | ⟨hm, x, h1, rfl⟩ | ⟨hm, x, h1, rfl⟩ | ⟨hm, x, h1, rfl⟩ | ⟨hm, x, h1, rfl⟩ | ⟨hm, x, h1, rfl⟩ | ⟨hm, x, h1, rfl⟩ <;> first | exact h1 | simp at hm
  other a m v a' hne h := by
    rcases store_cases h with
      ⟨hm, x, h1, rfl⟩ | ⟨hm, x, h1, rfl⟩ | ⟨hm, x, h1, rfl⟩ | ⟨hm, x, h1, rfl⟩ | ⟨hm, x, h1, rfl⟩ | ⟨hm, x, h1, rfl⟩ | ⟨hm, x, h1, rfl⟩ | ⟨hm, x, h1, rfl⟩ | ⟨hm, x, h1, rfl⟩ | ⟨hm, x, h1, rfl⟩ | ⟨hm, x, h1, rfl⟩ | ⟨hm, x, h1, rfl⟩ | ⟨hm, x, h1, rfl⟩ | ⟨hm, x, h1, rfl⟩ | ⟨hm, x, h1, rfl⟩ | ⟨hm, x, h1, rfl⟩ | ⟨hm, x, h1, rfl⟩ | ⟨hm, x, h1, rfl⟩ | ⟨hm, x, h1, rfl⟩ <;> first | rfl | exact absurd hm hne
theorem field_shapePixels : Field float Int "shape_pixels" pyInt Args.shapePixels where
  here a v a' h := by
    rcases store_cases h with
      ⟨hm, x, h1, rfl⟩ | ⟨hm, x, h1, rfl⟩ | ⟨hm, x, h1, rfl⟩ | ⟨hm, x, h1, rfl⟩ | ⟨hm, x, h1, rfl⟩ | ⟨hm, x, h1, rfl⟩ | ⟨hm, x, h1, rfl⟩ | ⟨hm, x, h1, rfl⟩ | ⟨hm, x, h1, rfl⟩ | ⟨hm, x, h1, rfl⟩ | ⟨hm, x, h1, rfl⟩ | ⟨hm, x, h1, rfl⟩ | ⟨hm, x, h1, rfl⟩ | ⟨hm, x, h1, rfl⟩ | ⟨hm, x, h1, rfl⟩ | ⟨hm, x, h1, rfl⟩ | ⟨hm, x, h1, rfl⟩ | ⟨hm, x, h1, rfl⟩ | ⟨hm, x, h1, rfl⟩ <;> first | exact h1 | simp at hm
  other a m v a' hne h := by
    rcases store_cases h with
      ⟨hm, x, h1, rfl⟩ | ⟨hm, x, h1, rfl⟩ | ⟨hm, x, h1, rfl⟩ | ⟨hm, x, h1, rfl⟩ | ⟨hm, x, h1, rfl⟩ | ⟨hm, x, h1, rfl⟩ | ⟨hm, x, h1, rfl⟩ | ⟨hm, x, h1, rfl⟩ | ⟨hm, x, h1, rfl⟩ | ⟨hm, x, h1, rfl⟩ | ⟨hm, x, h1, rfl⟩ | ⟨hm, x, h1, rfl⟩ | ⟨hm, x, h1, rfl⟩ | ⟨hm, x, h1, rfl⟩ | ⟨hm, x, h1, rfl⟩ | ⟨hm, x, h1, rfl⟩ | ⟨hm, x, h1, rfl⟩ | ⟨hm, x, h1, rfl⟩ | ⟨hm, x, h1, rfl⟩ <;> first | rfl | exact absurd hm hne
theorem field_timesteps : Field float Int "timesteps" pyInt Args.timesteps where
  here a v a' h := by
    rcases store_cases h with
      ⟨hm, x, h1, rfl⟩ | ⟨hm, x, h1, rfl⟩ | ⟨hm, x, h1, rfl⟩ | ⟨hm, x, h1, rfl⟩ | ⟨hm, x, h1, rfl⟩ | ⟨hm, x, h1, rfl⟩ | ⟨hm, x, h1, rfl⟩ | ⟨hm, x, h1, rfl⟩ | ⟨hm, x, h1, rfl⟩ | ⟨hm, x, h1, rfl⟩ | ⟨hm, x, h1, rfl⟩ | ⟨hm, x, h1, rfl⟩ | ⟨hm, x, h1, rfl⟩ | ⟨hm, x, h1, rfl⟩ | ⟨hm, x, h1, rfl⟩ | ⟨hm, x, h1, rfl⟩ | ⟨hm, x, h1, rfl⟩ | ⟨hm, x, h1, rfl⟩ | ⟨hm, x, h1, rfl⟩ <;> first | exact h1 | simp at hm
  other a m v a' hne h := by
    rcases store_cases h with
      ⟨hm, x, h1, rfl⟩ | ⟨hm, x, h1, rfl⟩ | ⟨hm, x, h1, rfl⟩ | ⟨hm, x, h1, rfl⟩ | ⟨hm, x, h1, rfl⟩ | ⟨hm, x, h1, rfl⟩ | ⟨hm, x, h1, rfl⟩ | ⟨hm, x, h1, rfl⟩ | ⟨hm, x, h1, rfl⟩ | ⟨hm, x, h1, rfl⟩ | ⟨hm, x, h1, rfl⟩ | ⟨hm, x, h1, rfl⟩ | ⟨hm, x, h1, rfl⟩ | ⟨hm, x, h1, rfl⟩ | ⟨hm, x, h1, rfl⟩ | ⟨hm, x, h1, rfl⟩ | ⟨hm, x, h1, rfl⟩ | ⟨hm, x, h1, rfl⟩ | ⟨hm, x, h1, rfl⟩ <;> first | rfl | exact absurd hm hne
theorem field_numObjects : Field float Int "num_objects" pyInt Args.numObjects where
  here a v a' h := by
    rcases store_cases h with
      ⟨hm, x, h1, rfl⟩ | ⟨hm, x, h1, rfl⟩ | ⟨hm, x, h1, rfl⟩ | ⟨hm, x, h1, rfl⟩ | ⟨hm, x, h1, rfl⟩ | ⟨hm, x, h1, rfl⟩ | ⟨hm, x, h1, rfl⟩ | ⟨hm, x, h1, rfl⟩ | ⟨hm, x, h1, rfl⟩ | ⟨hm, x, h1, rfl⟩ | ⟨hm, x, h1, rfl⟩ | ⟨hm, x, h1, rfl⟩ | ⟨hm, x, h1, rfl⟩ | ⟨hm, x, h1, rfl⟩ | ⟨hm, x, h1, rfl⟩ | ⟨hm, x, h1, rfl⟩ | ⟨hm, x, h1, rfl⟩ | ⟨hm, x, h1, rfl⟩ | ⟨hm, x, h1, rfl⟩ <;> first | exact h1 | simp at hm
  other a m v a' hne h := by
    rcases store_cases h with
      ⟨hm, x, h1, rfl⟩ | ⟨hm, x, h1, rfl⟩ | ⟨hm, x, h1, rfl⟩ | ⟨hm, x, h1, rfl⟩ | ⟨hm, x, h1, rfl⟩ | ⟨hm, x, h1, rfl⟩ | ⟨hm, x, h1, rfl⟩ | ⟨hm, x, h1, rfl⟩ | ⟨hm, x, h1, rfl⟩ | ⟨hm, x, h1, rfl⟩ | ⟨hm, x, h1, rfl⟩ | ⟨hm, x, h1, rfl⟩ | ⟨hm, x, h1, rfl⟩ | ⟨hm, x, h1, rfl⟩ | ⟨hm, x, h1, rfl⟩ | ⟨hm, x, h1, rfl⟩ | ⟨hm, x, h1, rfl⟩ | ⟨hm, x, h1, rfl⟩ | ⟨hm, x, h1, rfl⟩ <;> first | rfl | exact absurd hm hne
theorem field_device : Field float String "device" some Args.device where
  here a v a' h := by
    rcases store_cases h with
      ⟨hm, x, h1, rfl⟩ | ⟨hm, x, h1, rfl⟩ | ⟨hm, x, h1, rfl⟩ | ⟨hm, x, h1, rfl⟩ | ⟨hm, x, h1, rfl⟩ | ⟨hm, x, h1, rfl⟩ | ⟨hm, x, h1, rfl⟩ | ⟨hm, x, h1, rfl⟩ | ⟨hm, x, h1, rfl⟩ | ⟨hm, x, h1, rfl⟩ | ⟨hm, x, h1, rfl⟩ | ⟨hm, x, h1, rfl⟩ | ⟨hm, x, h1, rfl⟩ | ⟨hm, x, h1, rfl⟩ | ⟨hm, x, h1, rfl⟩ | ⟨hm, x, h1, rfl⟩ | ⟨hm, x, h1, rfl⟩ | ⟨hm, x, h1, rfl⟩ | ⟨hm, x, h1, rfl⟩ <;> first | exact h1 | simp at hm
  other a m v a' hne h := by
    rcases store_cases h with
      ⟨hm, x, h1, rfl⟩ | ⟨hm, x, h1, rfl⟩ | ⟨hm, x, h1, rfl⟩ | ⟨hm, x, h1, rfl⟩ | ⟨hm, x, h1, rfl⟩ | ⟨hm, x, h1, rfl⟩ | ⟨hm, x, h1, rfl⟩ | ⟨hm, x, h1, rfl⟩ | ⟨hm, x, h1, rfl⟩ | ⟨hm, x, h1, rfl⟩ | ⟨hm, x, h1, rfl⟩ | ⟨hm, x, h1, rfl⟩ | ⟨hm, x, h1, rfl⟩ | ⟨hm, x, h1, rfl⟩ | ⟨hm, x, h1, rfl⟩ | ⟨hm, x, h1, rfl⟩ | ⟨hm, x, h1, rfl⟩ | ⟨hm, x, h1, rfl⟩ | ⟨hm, x, h1, rfl⟩ <;> first | rfl | exact absurd hm hne
theorem field_numEpochs : Field float Int "num_epochs" pyInt Args.numEpochs where
  here a v a' h := by
    rcases store_cases h with
      ⟨hm, x, h1, rfl⟩ | ⟨hm, x, h1, rfl⟩ | ⟨hm, x, h1, rfl⟩ | ⟨hm, x, h1, rfl⟩ | ⟨hm, x, h1, rfl⟩ | ⟨hm, x, h1, rfl⟩ | ⟨hm, x, h1, rfl⟩ | ⟨hm, x, h1, rfl⟩ | ⟨hm, x, h1, rfl⟩ | ⟨hm, x, h1, rfl⟩ | ⟨hm, x, h1, rfl⟩ | ⟨hm, x, h1, rfl⟩ | ⟨hm, x, h1, rfl⟩ | ⟨hm, x, h1, rfl⟩ | ⟨hm, x, h1, rfl⟩ | ⟨hm, x, h1, rfl⟩ | ⟨hm, x, h1, rfl⟩ | ⟨hm, x, h1, rfl⟩ | ⟨hm, x, h1, rfl⟩ <;> first | exact h1 | simp at hm
  other a m v a' hne h := by
    rcases store_cases h with
      ⟨hm, x, h1, rfl⟩ | ⟨hm, x, h1, rfl⟩ | ⟨hm, x, h1, rfl⟩ | ⟨hm, x, h1, rfl⟩ | ⟨hm, x, h1, rfl⟩ | ⟨hm, x, h1, rfl⟩ | ⟨hm, x, h1, rfl⟩ | ⟨hm, x, h1, rfl⟩ | ⟨hm, x, h1, rfl⟩ | ⟨hm, x, h1, rfl⟩ | ⟨hm, x, h1, rfl⟩ | ⟨hm, x, h1, rfl⟩ | ⟨hm, x, h1, rfl⟩ | ⟨hm, x, h1, rfl⟩ | ⟨hm, x, h1, rfl⟩ | ⟨hm, x, h1, rfl⟩ | ⟨hm, x, h1, rfl⟩ | ⟨hm, x, h1, rfl⟩ | ⟨hm, x, h1, rfl⟩ <;> first | rfl | exact absurd hm hne
theorem field_lr : Field float F "lr" float Args.lr where
  here a v a' h := by
    rcases store_cases h with
      ⟨hm, x, h1, rfl⟩ | ⟨hm, x, h1, rfl⟩ | ⟨hm, x, h1, rfl⟩ | ⟨hm, x, h1, rfl⟩ | ⟨hm, x, h1, rfl⟩ | ⟨hm, x, h1, rfl⟩ | ⟨hm, x, h1, rfl⟩ | ⟨hm, x, h1, rfl⟩ | ⟨hm, x, h1, rfl⟩ | ⟨hm, x, h1, rfl⟩ | ⟨hm, x, h1, rfl⟩ | ⟨hm, x, h1, rfl⟩ | ⟨hm, x, h1, rfl⟩ | ⟨hm, x, h1, rfl⟩ | ⟨hm, x, h1, rfl⟩ | ⟨hm, x, h1, rfl⟩ | ⟨hm, x, h1, rfl⟩ | ⟨hm, x, h1, rfl⟩ | ⟨hm, x, h1, rfl⟩ <;> first | exact h1 | simp at hm
  other a m v a' hne h := by
    rcases store_cases h with
      ⟨hm, x, h1, rfl⟩ | ⟨hm, x, h1, rfl⟩ | ⟨hm, x, h1, rfl⟩ | ⟨hm, x, h1, rfl⟩ | ⟨hm, x, h1, rfl⟩ | ⟨hm, x, h1, rfl⟩ | ⟨hm, x, h1, rfl⟩ | ⟨hm, x, h1, rfl⟩ | ⟨hm, x, h1, rfl⟩ | ⟨hm, x, h1, rfl⟩ | ⟨hm, x, h1, rfl⟩ | ⟨hm, x, h1, rfl⟩ | ⟨hm, x, h1, rfl⟩ | ⟨hm, x, h1, rfl⟩ | ⟨hm, x, h1, rfl⟩ | ⟨hm, x, h1, rfl⟩ | ⟨hm, x, h1, rfl⟩ | ⟨hm, x, h1, rfl⟩ | ⟨hm, x, h1, rfl⟩ <;> first | rfl | exact absurd hm hne
theorem field_batchSize : Field float Int "batch_size" pyInt Args.batchSize where
  here a v a' h := by
    rcases store_cases h with
      ⟨hm, x, h1, rfl⟩ | ⟨hm, x, h1, rfl⟩ | ⟨hm, x, h1, rfl⟩ | ⟨hm, x, h1, rfl⟩ | ⟨hm, x, h1, rfl⟩ | ⟨hm, x, h1, rfl⟩ | ⟨hm, x, h1, rfl⟩ | ⟨hm, x, h1, rfl⟩ | ⟨hm, x, h1, rfl⟩ | ⟨hm, x, h1, rfl⟩ | ⟨hm, x, h1, rfl⟩ | ⟨hm, x, h1, rfl⟩ | ⟨hm, x, h1, rfl⟩ | ⟨hm, x, h1, rfl⟩ | ⟨hm, x, h1, rfl⟩ | ⟨hm, x, h1, rfl⟩ | ⟨hm, x, h1, rfl⟩ | ⟨hm, x, h1, rfl⟩ | ⟨hm, x, h1, rfl⟩ <;> first | exact h1 | simp at hm
  other a m v a' hne h := by
    rcases store_cases h with
      ⟨hm, x, h1, rfl⟩ | ⟨hm, x, h1, rfl⟩ | ⟨hm, x, h1, rfl⟩ | ⟨hm, x, h1, rfl⟩ | ⟨hm, x, h1, rfl⟩ | ⟨hm, x, h1, rfl⟩ | ⟨hm, x, h1, rfl⟩ | ⟨hm, x, h1, rfl⟩ | ⟨hm, x, h1, rfl⟩ | ⟨hm, x, h1, rfl⟩ | ⟨hm, x, h1, rfl⟩ | ⟨hm, x, h1, rfl⟩ | ⟨hm, x, h1, rfl⟩ | ⟨hm, x, h1, rfl⟩ | ⟨hm, x, h1, rfl⟩ | ⟨hm, x, h1, rfl⟩ | ⟨hm, x, h1, rfl⟩ | ⟨hm, x, h1, rfl⟩ | ⟨hm, x, h1, rfl⟩ <;> first | rfl | exact absurd hm hne
theorem field_budget : Field float Int "budget" pyInt Args.budget where
  here a v a' h := by
    rcases store_cases h with
      ⟨hm, x, h1, rfl⟩ | ⟨hm, x, h1, rfl⟩ | ⟨hm, x, h1, rfl⟩ | ⟨hm, x, h1, rfl⟩ | ⟨hm, x, h1, rfl⟩ | ⟨hm, x, h1, rfl⟩ | ⟨hm, x, h1, rfl⟩ | ⟨hm, x, h1, rfl⟩ | ⟨hm, x, h1, rfl⟩ | ⟨hm, x, h1, rfl⟩ | ⟨hm, x, h1, rfl⟩ | ⟨hm, x, h1, rfl⟩ | ⟨hm, x, h1, rfl⟩ | ⟨hm, x, h1, rfl⟩ | ⟨hm, x, h1, rfl⟩ | ⟨hm, x, h1, rfl⟩ | ⟨hm, x, h1, rfl⟩ | ⟨hm, x, h1, rfl⟩ | ⟨hm, x, h1, rfl⟩ <;> first | exact h1 | simp at hm
  other a m v a' hne h := by
    rcases store_cases h with
      ⟨hm, x, h1, rfl⟩ | ⟨hm, x, h1, rfl⟩ | ⟨hm, x, h1, rfl⟩ | ⟨hm, x, h1, rfl⟩ | ⟨hm, x, h1, rfl⟩ | ⟨hm, x, h1, rfl⟩ | ⟨hm, x, h1, rfl⟩ | ⟨hm, x, h1, rfl⟩ | ⟨hm, x, h1, rfl⟩ | ⟨hm, x, h1, rfl⟩ | ⟨hm, x, h1, rfl⟩ | ⟨hm, x, h1, rfl⟩ | ⟨hm, x, h1, rfl⟩ | ⟨hm, x, h1, rfl⟩ | ⟨hm, x, h1, rfl⟩ | ⟨hm, x, h1, rfl⟩ | ⟨hm, x, h1, rfl⟩ | ⟨hm, x, h1, rfl⟩ | ⟨hm, x, h1, rfl⟩ <;> first | rfl | exact absurd hm hne
theorem field_numSweeps : Field float Int "num_sweeps" pyInt Args.numSweeps where
  here a v a' h := by
    rcases store_cases h with
      ⟨hm, x, h1, rfl⟩ | ⟨hm, x, h1, rfl⟩ | ⟨hm, x, h1, rfl⟩ | ⟨hm, x, h1, rfl⟩ | ⟨hm, x, h1, rfl⟩ | ⟨hm, x, h1, rfl⟩ | ⟨hm, x, h1, rfl⟩ | ⟨hm, x, h1, rfl⟩ | ⟨hm, x, h1, rfl⟩ | ⟨hm, x, h1, rfl⟩ | ⟨hm, x, h1, rfl⟩ | ⟨hm, x, h1, rfl⟩ | ⟨hm, x, h1, rfl⟩ | ⟨hm, x, h1, rfl⟩ | ⟨hm, x, h1, rfl⟩ | ⟨hm, x, h1, rfl⟩ | ⟨hm, x, h1, rfl⟩ | ⟨hm, x, h1, rfl⟩ | ⟨hm, x, h1, rfl⟩ <;> first | exact h1 | simp at hm
  other a m v a' hne h := by
    rcases store_cases h with
      ⟨hm, x, h1, rfl⟩ | ⟨hm, x, h1, rfl⟩ | ⟨hm, x, h1, rfl⟩ | ⟨hm, x, h1, rfl⟩ | ⟨hm, x, h1, rfl⟩ | ⟨hm, x, h1, rfl⟩ | ⟨hm, x, h1, rfl⟩ | ⟨hm, x, h1, rfl⟩ | ⟨hm, x, h1, rfl⟩ | ⟨hm, x, h1, rfl⟩ | ⟨hm, x, h1, rfl⟩ | ⟨hm, x, h1, rfl⟩ | ⟨hm, x, h1, rfl⟩ | ⟨hm, x, h1, rfl⟩ | ⟨hm, x, h1, rfl⟩ | ⟨hm, x, h1, rfl⟩ | ⟨hm, x, h1, rfl⟩ | ⟨hm, x, h1, rfl⟩ | ⟨hm, x, h1, rfl⟩ <;> first | rfl | exact absurd hm hne
theorem field_numHiddenDigit : Field float Int "num_hidden_digit" pyInt Args.numHiddenDigit where
  here a v a' h := by
    rcases store_cases h with
      ⟨hm, x, h1, rfl⟩ | ⟨hm, x, h1, rfl⟩ | ⟨hm, x, h1, rfl⟩ | ⟨hm, x, h1, rfl⟩ | ⟨hm, x, h1, rfl⟩ | ⟨hm, x, h1, rfl⟩ | ⟨hm, x, h1, rfl⟩ | ⟨hm, x, h1, rfl⟩ | ⟨hm, x, h1, rfl⟩ | ⟨hm, x, h1, rfl⟩ | ⟨hm, x, h1, rfl⟩ | ⟨hm, x, h1, rfl⟩ | ⟨hm, x, h1, rfl⟩ | ⟨hm, x, h1, rfl⟩ | ⟨hm, x, h1, rfl⟩ | ⟨hm, x, h1, rfl⟩ | ⟨hm, x, h1, rfl⟩ | ⟨hm, x, h1, rfl⟩ | ⟨hm, x, h1, rfl⟩ <;> first | exact h1 | simp at hm
  other a m v a' hne h := by
    rcases store_cases h with
      ⟨hm, x, h1, rfl⟩ | ⟨hm, x, h1, rfl⟩ | ⟨hm, x, h1, rfl⟩ | ⟨hm, x, h1, rfl⟩ | ⟨hm, x, h1, rfl⟩ | ⟨hm, x, h1, rfl⟩ | ⟨hm, x, h1, rfl⟩ | ⟨hm, x, h1, rfl⟩ | ⟨hm, x, h1, rfl⟩ | ⟨hm, x, h1, rfl⟩ | ⟨hm, x, h1, rfl⟩ | ⟨hm, x, h1, rfl⟩ | ⟨hm, x, h1, rfl⟩ | ⟨hm, x, h1, rfl⟩ | ⟨hm, x, h1, rfl⟩ | ⟨hm, x, h1, rfl⟩ | ⟨hm, x, h1, rfl⟩ | ⟨hm, x, h1, rfl⟩ | ⟨hm, x, h1, rfl⟩ <;> first | rfl | exact absurd hm hne
theorem field_numHiddenCoor : Field float Int "num_hidden_coor" pyInt Args.numHiddenCoor where
  here a v a' h := by
    rcases store_cases h with
      ⟨hm, x, h1, rfl⟩ | ⟨hm, x, h1, rfl⟩ | ⟨hm, x, h1, rfl⟩ | ⟨hm, x, h1, rfl⟩ | ⟨hm, x, h1, rfl⟩ | ⟨hm, x, h1, rfl⟩ | ⟨hm, x, h1, rfl⟩ | ⟨hm, x, h1, rfl⟩ | ⟨hm, x, h1, rfl⟩ | ⟨hm, x, h1, rfl⟩ | ⟨hm, x, h1, rfl⟩ | ⟨hm, x, h1, rfl⟩ | ⟨hm, x, h1, rfl⟩ | ⟨hm, x, h1, rfl⟩ | ⟨hm, x, h1, rfl⟩ | ⟨hm, x, h1, rfl⟩ | ⟨hm, x, h1, rfl⟩ | ⟨hm, x, h1, rfl⟩ | ⟨hm, x, h1, rfl⟩ <;> first | exact h1 | simp at hm
  other a m v a' hne h := by
    rcases store_cases h with
      ⟨hm, x, h1, rfl⟩ | ⟨hm, x, h1, rfl⟩ | ⟨hm, x, h1, rfl⟩ | ⟨hm, x, h1, rfl⟩ | ⟨hm, x, h1, rfl⟩ | ⟨hm, x, h1, rfl⟩ | ⟨hm, x, h1, rfl⟩ | ⟨hm, x, h1, rfl⟩ | ⟨hm, x, h1, rfl⟩ | ⟨hm, x, h1, rfl⟩ | ⟨hm, x, h1, rfl⟩ | ⟨hm, x, h1, rfl⟩ | ⟨hm, x, h1, rfl⟩ | ⟨hm, x, h1, rfl⟩ | ⟨hm, x, h1, rfl⟩ | ⟨hm, x, h1, rfl⟩ | ⟨hm, x, h1, rfl⟩ | ⟨hm, x, h1, rfl⟩ | ⟨hm, x, h1, rfl⟩ <;> first | rfl | exact absurd hm hne
theorem field_zWhereDim : Field float Int "z_where_dim" pyInt Args.zWhereDim where
  here a v a' h := by
    rcases store_cases h with
      ⟨hm, x, h1, rfl⟩ | ⟨hm, x, h1, rfl⟩ | ⟨hm, x, h1, rfl⟩ | ⟨hm, x, h1, rfl⟩ | ⟨hm, x, h1, rfl⟩ | ⟨hm, x, h1, rfl⟩ | ⟨hm, x, h1, rfl⟩ | ⟨hm, x, h1, rfl⟩ | ⟨hm, x, h1, rfl⟩ | ⟨hm, x, h1, rfl⟩ | ⟨hm, x, h1, rfl⟩ | ⟨hm, x, h1, rfl⟩ | ⟨hm, x, h1, rfl⟩ | ⟨hm, x, h1, rfl⟩ | ⟨hm, x, h1, rfl⟩ | ⟨hm, x, h1, rfl⟩ | ⟨hm, x, h1, rfl⟩ | ⟨hm, x, h1, rfl⟩ | ⟨hm, x, h1, rfl⟩ <;> first | exact h1 | simp at hm
  other a m v a' hne h := by
    rcases store_cases h with
      ⟨hm, x, h1, rfl⟩ | ⟨hm, x, h1, rfl⟩ | ⟨hm, x, h1, rfl⟩ | ⟨hm, x, h1, rfl⟩ | ⟨hm, x, h1, rfl⟩ | ⟨hm, x, h1, rfl⟩ | ⟨hm, x, h1, rfl⟩ | ⟨hm, x, h1, rfl⟩ | ⟨hm, x, h1, rfl⟩ | ⟨hm, x, h1, rfl⟩ | ⟨hm, x, h1, rfl⟩ | ⟨hm, x, h1, rfl⟩ | ⟨hm, x, h1, rfl⟩ | ⟨hm, x, h1, rfl⟩ | ⟨hm, x, h1, rfl⟩ | ⟨hm, x, h1, rfl⟩ | ⟨hm, x, h1, rfl⟩ | ⟨hm, x, h1, rfl⟩ | ⟨hm, x, h1, rfl⟩ <;> first | rfl | exact absurd hm hne
theorem field_zWhatDim : Field float Int "z_what_dim" pyInt Args.zWhatDim where
  here a v a' h := by
    rcases store_cases h with
      ⟨hm, x, h1, rfl⟩ | ⟨hm, x, h1, rfl⟩ | ⟨hm, x, h1, rfl⟩ | ⟨hm, x, h1, rfl⟩ | ⟨hm, x, h1, rfl⟩ | ⟨hm, x, h1, rfl⟩ | ⟨hm, x, h1, rfl⟩ | ⟨hm, x, h1, rfl⟩ | ⟨hm, x, h1, rfl⟩ | ⟨hm, x, h1, rfl⟩ | ⟨hm, x, h1, rfl⟩ | ⟨hm, x, h1, rfl⟩ | ⟨hm, x, h1, rfl⟩ | ⟨hm, x, h1, rfl⟩ | ⟨hm, x, h1, rfl⟩ | ⟨hm, x, h1, rfl⟩ | ⟨hm, x, h1, rfl⟩ | ⟨hm, x, h1, rfl⟩ | ⟨hm, x, h1, rfl⟩ <;> first | exact h1 | simp at hm
  other a m v a' hne h := by
    rcases store_cases h with
      ⟨hm, x, h1, rfl⟩ | ⟨hm, x, h1, rfl⟩ | ⟨hm, x, h1, rfl⟩ | ⟨hm, x, h1, rfl⟩ | ⟨hm, x, h1, rfl⟩ | ⟨hm, x, h1, rfl⟩ | ⟨hm, x, h1, rfl⟩ | ⟨hm, x, h1, rfl⟩ | ⟨hm, x, h1, rfl⟩ | ⟨hm, x, h1, rfl⟩ | ⟨hm, x, h1, rfl⟩ | ⟨hm, x, h1, rfl⟩ | ⟨hm, x, h1, rfl⟩ | ⟨hm, x, h1, rfl⟩ | ⟨hm, x, h1, rfl⟩ | ⟨hm, x, h1, rfl⟩ | ⟨hm, x, h1, rfl⟩ | ⟨hm, x, h1, rfl⟩ | ⟨hm, x, h1, rfl⟩ <;> first | rfl | exact absurd hm hne
theorem field_test : Field float Bool "test" flagText Args.test where
  here a v a' h := by
    rcases store_cases h with
      ⟨hm, x, h1, rfl⟩ | ⟨hm, x, h1, rfl⟩ | ⟨hm, x, h1, rfl⟩ | ⟨hm, x, h1, rfl⟩ | ⟨hm, x, h1, rfl⟩ | ⟨hm, x, h1, rfl⟩ | ⟨hm, x, h1, rfl⟩ | ⟨hm, x, h1, rfl⟩ | ⟨hm, x, h1, rfl⟩ | ⟨hm, x, h1, rfl⟩ | ⟨hm, x, h1, rfl⟩ | ⟨hm, x, h1, rfl⟩ | ⟨hm, x, h1, rfl⟩ | ⟨hm, x, h1, rfl⟩ | ⟨hm, x, h1, rfl⟩ | ⟨hm, x, h1, rfl⟩ | ⟨hm, x, h1, rfl⟩ | ⟨hm, x, h1, rfl⟩ | ⟨hm, x, h1, rfl⟩ <;> first | exact h1 | simp at hm
  other a m v a' hne h := by
    rcases store_cases h with
      ⟨hm, x, h1, rfl⟩ | ⟨hm, x, h1, rfl⟩ | ⟨hm, x, h1, rfl⟩ | ⟨hm, x, h1, rfl⟩ | ⟨hm, x, h1, rfl⟩ | ⟨hm, x, h1, rfl⟩ | ⟨hm, x, h1, rfl⟩ | ⟨hm, x, h1, rfl⟩ | ⟨hm, x, h1, rfl⟩ | ⟨hm, x, h1, rfl⟩ | ⟨hm, x, h1, rfl⟩ | ⟨hm, x, h1, rfl⟩ | ⟨hm, x, h1, rfl⟩ | ⟨hm, x, h1, rfl⟩ | ⟨hm, x, h1, rfl⟩ | ⟨hm, x, h1, rfl⟩ | ⟨hm, x, h1, rfl⟩ | ⟨hm, x, h1, rfl⟩ | ⟨hm, x, h1, rfl⟩ <;> first | rfl | exact absurd hm hne
theorem field_smoketest : Field float Bool "smoketest" flagText Args.smoketest where
  here a v a' h := by
    rcases store_cases h with
      ⟨hm, x, h1, rfl⟩ | ⟨hm, x, h1, rfl⟩ | ⟨hm, x, h1, rfl⟩ | ⟨hm, x, h1, rfl⟩ | ⟨hm, x, h1, rfl⟩ | ⟨hm, x, h1, rfl⟩ | ⟨hm, x, h1, rfl⟩ | ⟨hm, x, h1, rfl⟩ | ⟨hm, x, h1, rfl⟩ | ⟨hm, x, h1, rfl⟩ | ⟨hm, x, h1, rfl⟩ | ⟨hm, x, h1, rfl⟩ | ⟨hm, x, h1, rfl⟩ | ⟨hm, x, h1, rfl⟩ | ⟨hm, x, h1, rfl⟩ | ⟨hm, x, h1, rfl⟩ | ⟨hm, x, h1, rfl⟩ | ⟨hm, x, h1, rfl⟩ | ⟨hm, x, h1, rfl⟩ <;> first | exact h1 | simp at hm
  other a m v a' hne h := by
    rcases store_cases h with
      ⟨hm, x, h1, rfl⟩ | ⟨hm, x, h1, rfl⟩ | ⟨hm, x, h1, rfl⟩ | ⟨hm, x, h1, rfl⟩ | ⟨hm, x, h1, rfl⟩ | ⟨hm, x, h1, rfl⟩ | ⟨hm, x, h1, rfl⟩ | ⟨hm, x, h1, rfl⟩ | ⟨hm, x, h1, rfl⟩ | ⟨hm, x, h1, rfl⟩ | ⟨hm, x, h1, rfl⟩ | ⟨hm, x, h1, rfl⟩ | ⟨hm, x, h1, rfl⟩ | ⟨hm, x, h1, rfl⟩ | ⟨hm, x, h1, rfl⟩ | ⟨hm, x, h1, rfl⟩ | ⟨hm, x, h1, rfl⟩ | ⟨hm, x, h1, rfl⟩ | ⟨hm, x, h1, rfl⟩ <;> first | rfl | exact absurd hm hne
theorem field_iterations : Field float Int "iterations" pyInt Args.iterations where
  here a v a' h := by
    rcases store_cases h with
      ⟨hm, x, h1, rfl⟩ | ⟨hm, x, h1, rfl⟩ | ⟨hm, x, h1, rfl⟩ | ⟨hm, x, h1, rfl⟩ | ⟨hm, x, h1, rfl⟩ | ⟨hm, x, h1, rfl⟩ | ⟨hm, x, h1, rfl⟩ | ⟨hm, x, h1, rfl⟩ | ⟨hm, x, h1, rfl⟩ | ⟨hm, x, h1, rfl⟩ | ⟨hm, x, h1, rfl⟩ | ⟨hm, x, h1, rfl⟩ | ⟨hm, x, h1, rfl⟩ | ⟨hm, x, h1, rfl⟩ | ⟨hm, x, h1, rfl⟩ | ⟨hm, x, h1, rfl⟩ | ⟨hm, x, h1, rfl⟩ | ⟨hm, x, h1, rfl⟩ | ⟨hm, x, h1, rfl⟩ <;> first | exact h1 | simp at hm
  other a m v a' hne h := by
    rcases store_cases h with
      ⟨hm, x, h1, rfl⟩ | ⟨hm, x, h1, rfl⟩ | ⟨hm, x, h1, rfl⟩ | ⟨hm, x, h1, rfl⟩ | ⟨hm, x, h1, rfl⟩ | ⟨hm, x, h1, rfl⟩ | ⟨hm, x, h1, rfl⟩ | ⟨hm, x, h1, rfl⟩ | ⟨hm, x, h1, rfl⟩ | ⟨hm, x, h1, rfl⟩ | ⟨hm, x, h1, rfl⟩ | ⟨hm, x, h1, rfl⟩ | ⟨hm, x, h1, rfl⟩ | ⟨hm, x, h1, rfl⟩ | ⟨hm, x, h1, rfl⟩ | ⟨hm, x, h1, rfl⟩ | ⟨hm, x, h1, rfl⟩ | ⟨hm, x, h1, rfl⟩ | ⟨hm, x, h1, rfl⟩ <;> first | rfl | exact absurd hm hne
theorem field_seed : Field float Int "seed" pyInt Args.seed where
  here a v a' h := by
    rcases store_cases h with
      ⟨hm, x, h1, rfl⟩ | ⟨hm, x, h1, rfl⟩ | ⟨hm, x, h1, rfl⟩ | ⟨hm, x, h1, rfl⟩ | ⟨hm, x, h1, rfl⟩ | ⟨hm, x, h1, rfl⟩ | ⟨hm, x, h1, rfl⟩ | ⟨hm, x, h1, rfl⟩ | ⟨hm, x, h1, rfl⟩ | ⟨hm, x, h1, rfl⟩ | ⟨hm, x, h1, rfl⟩ | ⟨hm, x, h1, rfl⟩ | ⟨hm, x, h1, rfl⟩ | ⟨hm, x, h1, rfl⟩ | ⟨hm, x, h1, rfl⟩ | ⟨hm, x, h1, rfl⟩ | ⟨hm, x, h1, rfl⟩ | ⟨hm, x, h1, rfl⟩ | ⟨hm, x, h1, rfl⟩ <;> first | exact h1 | simp at hm
  other a m v a' hne h := by
    rcases store_cases h with
      ⟨hm, x, h1, rfl⟩ | ⟨hm, x, h1, rfl⟩ | ⟨hm, x, h1, rfl⟩ | ⟨hm, x, h1, rfl⟩ | ⟨hm, x, h1, rfl⟩ | ⟨hm, x, h1, rfl⟩ | ⟨hm, x, h1, rfl⟩ | ⟨hm, x, h1, rfl⟩ | ⟨hm, x, h1, rfl⟩ | ⟨hm, x, h1, rfl⟩ | ⟨hm, x, h1, rfl⟩ | ⟨hm, x, h1, rfl⟩ | ⟨hm, x, h1, rfl⟩ | ⟨hm, x, h1, rfl⟩ | ⟨hm, x, h1, rfl⟩ | ⟨hm, x, h1, rfl⟩ | ⟨hm, x, h1, rfl⟩ | ⟨hm, x, h1, rfl⟩ | ⟨hm, x, h1, rfl⟩ <;> first | rfl | exact absurd hm hne

theorem parse_cons {a b : Args F} {o v : String} {opts : List (String × String)} (h : parseArgs float a ((o, v) :: opts) = some b) :
    ∃ n a', Means o n ∧ store float a n v = some a' ∧ parseArgs float a' opts = some b := by
  simp only [parseArgs, Option.bind_eq_some_iff] at h
  obtain ⟨n, h1, a', h2, h3⟩ := h
  exact ⟨n, a', (resolve_iff o n).1 h1, h2, h3⟩

theorem means_unique {o n m : String} (h : Means o n) (h' : Means o m) : n = m := by
  have h1 := (resolve_iff o n).2 h
  rw [(resolve_iff o m).2 h'] at h1
  exact (Option.some.inj h1).symm

theorem Field.notGiven {β : Type} {n : String} {conv : String → Option β} {get : Args F → β} (hf : Field float β n conv get)
    {opts : List (String × String)} : ∀ {a b : Args F}, parseArgs float a opts = some b → NotGiven opts n → get b = get a := by
  induction opts with
  | nil => intro a b h _; cases h; rfl
  | cons p opts ih =>
    intro a b h hn
    obtain ⟨m, a', h1, h2, h3⟩ := parse_cons (o := p.1) (v := p.2) h
    rw [ih h3 fun q hq => hn q (by simp [hq])]
    refine hf.other a m p.2 a' ?_ h2
    rintro rfl
    exact hn p (by simp) h1

theorem Field.optIs {β : Type} {n : String} {conv : String → Option β} {get : Args F → β} (hf : Field float β n conv get)
    {opts : List (String × String)} {a b : Args F} (h : parseArgs float a opts = some b) : OptIs opts n conv (get a) (get b) := by
  refine ⟨?_, hf.notGiven h⟩
  rintro v ⟨pre, o, post, rfl, ho, hpost⟩
  induction pre generalizing a with
  | nil =>
    obtain ⟨m, a', h1, h2, h3⟩ := parse_cons h
    cases means_unique h1 ho
    rw [hf.here _ _ _ h2, hf.notGiven h3 hpost]
  | cons p pre ih =>
    obtain ⟨m, a', h1, h2, h3⟩ := parse_cons (o := p.1) (v := p.2) h
    exact ih h3

/-- The value of every option is the last one given, converted, or the default. The two flags are on for every text but the empty one:
`--test=False` runs the test instead of training. -/
theorem C77_options (lr : F) (opts : List (String × String)) (a : Args F) (h : parseArgs float (defaults lr) opts = some a) :
    OptIs opts "data_dir" some "./dataset/" a.dataDir ∧
    OptIs opts "frame_pixels" pyInt 96 a.framePixels ∧
    OptIs opts "shape_pixels" pyInt 28 a.shapePixels ∧
    OptIs opts "timesteps" pyInt 10 a.timesteps ∧
    OptIs opts "num_objects" pyInt 3 a.numObjects ∧
    OptIs opts "device" some "cpu" a.device ∧
    OptIs opts "num_epochs" pyInt 200 a.numEpochs ∧
    OptIs opts "lr" float lr a.lr ∧
    OptIs opts "batch_size" pyInt 10 a.batchSize ∧
    OptIs opts "budget" pyInt 120 a.budget ∧
    OptIs opts "num_sweeps" pyInt 5 a.numSweeps ∧
    OptIs opts "num_hidden_digit" pyInt 400 a.numHiddenDigit ∧
    OptIs opts "num_hidden_coor" pyInt 400 a.numHiddenCoor ∧
    OptIs opts "z_where_dim" pyInt 2 a.zWhereDim ∧
    OptIs opts "z_what_dim" pyInt 10 a.zWhatDim ∧
    OptIs opts "test" flagText false a.test ∧
    OptIs opts "smoketest" flagText false a.smoketest ∧
    OptIs opts "iterations" pyInt 10 a.iterations ∧
    OptIs opts "seed" pyInt 1 a.seed :=
  ⟨field_dataDir.optIs h, field_framePixels.optIs h, field_shapePixels.optIs h, field_timesteps.optIs h, field_numObjects.optIs h, field_device.optIs h, field_numEpochs.optIs h, field_lr.optIs h, field_batchSize.optIs h, field_budget.optIs h, field_numSweeps.optIs h, field_numHiddenDigit.optIs h, field_numHiddenCoor.optIs h, field_zWhereDim.optIs h, field_zWhatDim.optIs h, field_test.optIs h, field_smoketest.optIs h, field_iterations.optIs h, field_seed.optIs h⟩

theorem store_none {a : Args F} {m v : String} (hm : m ∈ optionNames) : store float a m v = none ↔
    m = "help" ∨ (m ∈ intOptions ∧ pyInt v = none) ∨ (m = "lr" ∧ float v = none) := by
  unfold store
  split <;> simp
  simp only [optionNames, List.mem_cons, List.not_mem_nil, or_false] at hm
  tauto

/-- The parser exits exactly if some option is unknown or ambiguous, asks for help, or wants a number and is given something else. -/
theorem C77_exits (opts : List (String × String)) (a : Args F) :
    parseArgs float a opts = none ↔ ∃ p ∈ opts, (∀ n, ¬ Means p.1 n) ∨ Means p.1 "help" ∨
      (∃ n ∈ intOptions, Means p.1 n ∧ pyInt p.2 = none) ∨ (Means p.1 "lr" ∧ float p.2 = none) := by
  induction opts generalizing a with
  | nil => simp [parseArgs]
  | cons p opts ih =>
    have hp : parseArgs float a (p :: opts) = (resolve p.1).bind fun n => (store float a n p.2).bind fun a' => parseArgs float a' opts := rfl
    rw [hp]
    rw [List.exists_mem_cons_iff]
    cases hr : resolve p.1 with
    | none =>
      simp only [Option.bind_none, true_iff]
      exact .inl (.inl fun n hn => by rw [(resolve_iff p.1 n).2 hn] at hr; cases hr)
    | some n =>
      have hm := (resolve_iff p.1 n).1 hr
      have e : ∀ m, Means p.1 m ↔ m = n := fun m => ⟨fun h => means_unique h hm, by rintro rfl; exact hm⟩
      simp only [Option.bind_some, e]
      have hno : (∀ m, ¬ m = n) ↔ False := ⟨fun h => h n rfl, False.elim⟩
      rw [hno, false_or]
      have hiff : store float a n p.2 = none ↔ "help" = n ∨ (∃ m ∈ intOptions, m = n ∧ pyInt p.2 = none) ∨ ("lr" = n ∧ float p.2 = none) := by
        rw [store_none hm.1]
        constructor
        · rintro (rfl | ⟨h1, h2⟩ | ⟨rfl, h2⟩)
          · exact .inl rfl
          · exact .inr (.inl ⟨n, h1, rfl, h2⟩)
          · exact .inr (.inr ⟨rfl, h2⟩)
        · rintro (h | ⟨m, h1, rfl, h2⟩ | ⟨rfl, h2⟩)
          · exact .inl h.symm
          · exact .inr (.inl ⟨h1, h2⟩)
          · exact .inr (.inr ⟨rfl, h2⟩)
      rw [← hiff]
      cases hs : store float a n p.2 with
      | none => simp
      | some a' => simp [ih]

example : parseArgs (fun _ => none) (defaults 2) [("test", "False"), ("num_sw", "8"), ("seed", "-3")] =
    some { defaults 2 with test := true, numSweeps := 8, seed := -3 } := by decide +kernel
example : parseArgs (fun _ => some 1) (defaults 2) [("num", "1")] = none := by decide +kernel
example : Means "sm" "smoketest" := (resolve_iff _ _).1 (by decide +kernel)

/-! ### The run -/

theorem andThen_ok {α β : Type} {x : Done F α} {k : α → Done F β} {b : β} (h : (x.andThen k).res = .ok b) :
    ∃ a, x.res = .ok a ∧ (k a).res = .ok b ∧ (x.andThen k).acts = x.acts ++ (k a).acts := by
  unfold Done.andThen at h ⊢
  cases hx : x.res with
  | error e => rw [hx] at h; cases h
  | ok a => rw [hx] at h; exact ⟨a, rfl, h, rfl⟩

theorem act_ok {E : Env F} {a : Act F} {u : Unit} (h : (act E a).res = .ok u) : (act E a).acts = [a] := by
  unfold act at h ⊢
  cases hx : E.raises a with
  | some e => rw [hx] at h; cases h
  | none => rfl

theorem actLoad_ok {E : Env F} {p : String} {s : List Nat} (h : (actLoad E p).res = .ok s) : (actLoad E p).acts = [.load p] ∧ E.load p = .ok s := by
  unfold actLoad at h ⊢
  cases hx : E.load p with
  | error e => rw [hx] at h; cases h
  | ok a => rw [hx] at h; cases h; exact ⟨rfl, rfl⟩

theorem actListdir_ok {E : Env F} {p : String} {s : List String} (h : (actListdir E p).res = .ok s) :
    (actListdir E p).acts = [.listdir p] ∧ E.listdir p = .ok s := by
  unfold actListdir at h ⊢
  cases hx : E.listdir p with
  | error e => rw [hx] at h; cases h
  | ok a => rw [hx] at h; cases h; exact ⟨rfl, rfl⟩

theorem filter_first {files rest : List String} {f : String} (h : (files.filter fun f => pyEndsWith f ".pt") = f :: rest) :
    FirstData files f := by
  induction files with
  | nil => cases h
  | cons g files ih =>
    rw [List.filter_cons] at h
    split at h
    · rename_i hg
      cases h
      exact ⟨[], files, rfl, by simpa [pyEndsWith] using hg, by simp⟩
    · rename_i hg
      obtain ⟨pre, post, rfl, h1, h2⟩ := ih h
      refine ⟨g :: pre, post, rfl, h1, fun x hx => ?_⟩
      rcases List.mem_cons.1 hx with rfl | hx
      · simpa [pyEndsWith] using hg
      · exact h2 x hx

/-- What a run without `--test` does: it seeds the generators and trains with the given settings. -/
theorem C77_train (E : Env F) (a : Args F) (ht : a.test = false) (h : (script E a).res = .ok ()) :
    (script E a).acts = [.seed a.seed,
      .train
        { numEpochs := a.numEpochs, lr := a.lr, batchSize := a.batchSize, budget := a.budget, numSweeps := a.numSweeps,
          timesteps := a.timesteps, dataDir := a.dataDir, smoketest := (a.smoketest, a.iterations),
          models :=
            { framePixels := a.framePixels, shapePixels := a.shapePixels, numHiddenDigit := a.numHiddenDigit,
              numHiddenCoor := a.numHiddenCoor, zWhereDim := a.zWhereDim, zWhatDim := a.zWhatDim, numObjects := a.numObjects,
              device := a.device } },
      .done] := by
  unfold script at h ⊢
  rw [ht] at h ⊢
  obtain ⟨_, h1, h2, e1⟩ := andThen_ok h
  obtain ⟨_, h3, h4, e2⟩ := andThen_ok h2
  rw [e1, e2, act_ok h1, act_ok h4]
  simp only [Bool.false_eq_true, if_false] at h3 ⊢
  rw [act_ok h3]
  rfl

/-- What a run with `--test` does. It reads the mean shape and one data file, the first of the directory whatever it was made for, builds
new models, and calls the sampler once. No parameters are read, so it is always the untrained models that are run; nothing is saved, and the
training settings `--num_epochs`, `--lr`, `--batch_size`, `--smoketest` and `--iterations` change nothing. -/
theorem C77_test (E : Env F) (a : Args F) (ht : a.test = true) (h : (script E a).res = .ok ()) :
    ∃ files f shape s, E.listdir (a.dataDir ++ "/video/") = .ok files ∧ FirstData files f ∧
      E.load (a.dataDir ++ "/video/" ++ f) = .ok shape ∧ a.numSweeps + 1 ≠ 0 ∧
      expand shape a.timesteps (Int.fdiv a.budget (a.numSweeps + 1)) = .ok s ∧
      (script E a).acts = [.seed a.seed, .load (a.dataDir ++ "mean_shape.pt"), .listdir (a.dataDir ++ "/video/"),
        .load (a.dataDir ++ "/video/" ++ f),
        .initModels
          { framePixels := a.framePixels, shapePixels := a.shapePixels, numHiddenDigit := a.numHiddenDigit,
            numHiddenCoor := a.numHiddenCoor, zWhereDim := a.zWhereDim, zWhatDim := a.zWhatDim, numObjects := a.numObjects,
            device := a.device },
        .sweeps a.numSweeps a.timesteps, .run s, .done] := by
  unfold script at h ⊢
  rw [ht] at h ⊢
  obtain ⟨_, h1, h2, e1⟩ := andThen_ok h
  obtain ⟨_, h3, h4, e2⟩ := andThen_ok h2
  rw [e1, e2, act_ok h1, act_ok h4]
  simp only [if_true] at h3 ⊢
  unfold testSweep ApgLoop.sampleSize at h3 ⊢
  by_cases h0 : a.numSweeps + 1 = 0
  · rw [if_pos h0] at h3; cases h3
  rw [if_neg h0] at h3 ⊢
  simp only at h3 ⊢
  obtain ⟨_, h5, h6, e5⟩ := andThen_ok h3
  obtain ⟨files, h7, h8, e7⟩ := andThen_ok h6
  rw [e5, e7, (actLoad_ok h5).1, (actListdir_ok h7).1]
  cases hf : files.filter fun f => pyEndsWith f ".pt" with
  | nil => rw [hf] at h8; cases h8
  | cons f rest =>
    rw [hf] at h8
    simp only at h8 ⊢
    obtain ⟨shape, h9, h10, e9⟩ := andThen_ok h8
    rw [e9, (actLoad_ok h9).1]
    cases hx : expand shape a.timesteps (Int.fdiv a.budget (a.numSweeps + 1)) with
    | error e => rw [hx] at h10; cases h10
    | ok s =>
      rw [hx] at h10
      simp only at h10 ⊢
      obtain ⟨_, h11, h12, e11⟩ := andThen_ok h10
      obtain ⟨_, h13, h14, e13⟩ := andThen_ok h12
      rw [e11, e13, act_ok h11, act_ok h13, act_ok h14]
      exact ⟨files, f, shape, s, (actListdir_ok h7).2, filter_first hf, (actLoad_ok h9).2, h0, hx, rfl⟩

/-- The sampler is given the first time steps of all sequences, as many as asked for or as there are (all but the last ones for a negative
number), once for each particle. -/
theorem C77_frames (n t h w : Nat) (T : Int) (k : Int) :
    (k < 0 → expand [n, t, h, w] T k = .error .runtime) ∧
    (0 ≤ k → 0 ≤ T → expand [n, t, h, w] T k = .ok [k.toNat, n, min t T.toNat, h, w]) ∧
    (0 ≤ k → T < 0 → expand [n, t, h, w] T k = .ok [k.toNat, n, t - T.natAbs, h, w]) := by
  have e : expand [n, t, h, w] T k = if k < 0 then .error .runtime else .ok [k.toNat, n, cut t T, h, w] := by
    unfold expand
    simp only [List.length_cons, List.length_nil]
    by_cases hk : k < 0
    · rw [if_pos hk, if_pos (Or.inr hk)]
    · rw [if_neg hk, if_neg (by omega), if_neg (by omega)]
      rfl
  rw [e]
  refine ⟨fun hk => if_pos hk, fun hk hT => ?_, fun hk hT => ?_⟩
  · rw [if_neg (by omega), cut, if_neg (by omega)]
  · rw [if_neg (by omega), cut, if_pos hT]
    have : ((t : Int) + T).toNat = t - T.natAbs := by omega
    rw [this]

/-- Without a data file the test raises IndexError, once the mean shape has been read and the directory listed. -/
theorem C77_no_data (E : Env F) (a : Args F) (ht : a.test = true) (hseed : E.raises (.seed a.seed) = none) (h0 : a.numSweeps + 1 ≠ 0)
    {shape : List Nat} (hm : E.load (a.dataDir ++ "mean_shape.pt") = .ok shape) {files : List String}
    (hl : E.listdir (a.dataDir ++ "/video/") = .ok files) (hn : ∀ f ∈ files, ¬ ".pt".toList <:+ f.toList) :
    (script E a).res = .error .index ∧
      (script E a).acts = [.seed a.seed, .load (a.dataDir ++ "mean_shape.pt"), .listdir (a.dataDir ++ "/video/")] := by
  have hf : (files.filter fun f => pyEndsWith f ".pt") = [] := by
    rw [List.filter_eq_nil_iff]
    intro f hf
    simpa [pyEndsWith] using hn f hf
  unfold script testSweep ApgLoop.sampleSize
  rw [ht, if_pos rfl, if_neg h0]
  simp only [act, hseed, Done.andThen, actLoad, hm, actListdir, hl, hf]
  exact ⟨trivial, rfl⟩

/-- The number of particles, for a nonnegative number of sweeps: as many as the budget allows for one call of the sampler each. The test
runs even if that is none; training does not. -/
theorem C77_particles (budget sweeps : Int) (hs : 0 ≤ sweeps) :
    Int.fdiv budget (sweeps + 1) * (sweeps + 1) ≤ budget ∧ budget < (Int.fdiv budget (sweeps + 1) + 1) * (sweeps + 1) := by
  have hp : 0 < sweeps + 1 := by omega
  rw [Int.fdiv_eq_ediv_of_nonneg _ hp.le]
  have h1 := Int.ediv_mul_add_emod budget (sweeps + 1)
  have h2 := Int.emod_nonneg budget hp.ne'
  have h3 := Int.emod_lt_of_pos budget hp
  constructor
  · omega
  · rw [add_mul]; omega

/-- A directory with a file for other settings first. -/
def Example.env : Env Nat where
  load p := if p = "./dataset/mean_shape.pt" then .ok [4, 28, 28] else .ok [10, 20, 96, 96]
  listdir _ := .ok ["readme", "timesteps=20-objects=5-1.pt", "timesteps=10-objects=3-1.pt"]
  raises _ := none

example : (script Example.env { defaults 2 with test := true }).res = .ok () ∧
    (script Example.env { defaults 2 with test := true }).acts =
      [.seed 1, .load "./dataset/mean_shape.pt", .listdir "./dataset//video/", .load "./dataset//video/timesteps=20-objects=5-1.pt",
        .initModels (modelArgs (defaults 2)), .sweeps 5 10, .run [20, 10, 10, 96, 96], .done] := by decide +kernel

example : (script Example.env (defaults 2)).res = .ok () := by decide +kernel

end ApgCli
end Verif
