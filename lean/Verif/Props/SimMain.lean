import Verif.Model.SimMain
import Verif.Model.ApgCli
import Verif.Props.ApgLoop
/-
C102: from the simulator's command line to the training run that uses its files.
-/
namespace Verif
open Spec

namespace Spec

/-- The number of files for n sequences in chunks of c. -/
def fileCount (n c : Nat) : Nat := n / c + if n % c = 0 then 0 else 1

/-- Steps of the optimiser for a file of N sequences, with minibatches of b. -/
def stepsFor (N b : Nat) : Nat := if N ≤ b then 1 else N / b

end Spec

namespace SimMain
open Cli (pySplit)

/-! ### Paths -/

theorem pySplit_append (c : Char) (l r : List Char) : pySplit c (l ++ c :: r) = pySplit c l ++ pySplit c r := by
  induction l with
  | nil => simp [pySplit]
  | cons x xs ih =>
    rw [List.cons_append, pySplit, pySplit]
    by_cases h : x = c
    · rw [if_pos h, if_pos h, ih, List.cons_append]
    · rw [if_neg h, if_neg h, ih]
      cases hx : pySplit c xs with
      | nil =>
        exfalso
        cases xs with
        | nil => simp [pySplit] at hx
        | cons y ys =>
          rw [pySplit] at hx
          split at hx
          · cases hx
          · split at hx <;> cases hx
      | cons p ps => rfl

/-- A file in a directory whose name ends with a slash. -/
theorem resolve_slash (cwd : Path) (s f : String) (h1 : '/' ∉ f.toList) (h2 : f.toList ≠ []) (h3 : f.toList ≠ ['.']) :
    resolve cwd (s ++ "/" ++ f) = resolve cwd (s ++ "/") ++ [f] := by
  unfold resolve
  have e1 : (s ++ "/" ++ f).toList = s.toList ++ '/' :: f.toList := by
    rw [String.toList_append, String.toList_append]
    simp
  have e2 : (s ++ "/").toList = s.toList ++ '/' :: [] := by rw [String.toList_append]; simp
  rw [e1, e2, pySplit_append, pySplit_append, Cli.pySplit_plain h1]
  simp [pySplit, h2, h3]

theorem slash_not_mem (n : Nat) : '/' ∉ (toString n).toList := by
  rw [Nat.toString_eq_repr, Nat.toList_repr]
  intro h
  have := Nat.isDigit_of_mem_toDigits (by omega) (by omega) h
  simp [Char.isDigit] at this

theorem chunkFile_plain (T K c : Nat) : '/' ∉ (chunkFile T K c).toList ∧ (chunkFile T K c).toList ≠ [] ∧ (chunkFile T K c).toList ≠ ['.'] ∧
    chunkFile T K c ≠ "mean_shape.pt" := by
  have e0 : ("seq-timesteps=" : String).toList = 's' :: 'e' :: 'q' :: '-' :: ['t', 'i', 'm', 'e', 's', 't', 'e', 'p', 's', '='] := by decide +kernel
  have e1 : '/' ∉ ("-objects=" : String).toList := by decide +kernel
  have e2 : '/' ∉ ("-p" : String).toList := by decide +kernel
  have e3 : '/' ∉ (".pt" : String).toList := by decide +kernel
  have e4 : ("mean_shape.pt" : String).toList = 'm' :: ("ean_shape.pt" : String).toList := by decide +kernel
  have h : (chunkFile T K c).toList = 's' :: 'e' :: 'q' :: '-' :: ['t', 'i', 'm', 'e', 's', 't', 'e', 'p', 's', '='] ++ (toString T).toList ++ ("-objects=" : String).toList ++
      (toString K).toList ++ ("-p" : String).toList ++ (toString c).toList ++ (".pt" : String).toList := by
    unfold chunkFile
    simp only [String.toList_append, e0]
  refine ⟨?_, ?_, ?_, fun e => ?_⟩
  · rw [h]
    simp only [List.mem_append, not_or]
    exact ⟨⟨⟨⟨⟨⟨by decide, slash_not_mem T⟩, e1⟩, slash_not_mem K⟩, e2⟩, slash_not_mem c⟩, e3⟩
  · rw [h]; simp
  · rw [h]; simp
  · have := congrArg String.toList e
    rw [h, e4] at this
    simp at this

/-! ### Files -/

theorem load_save {fs fs' : Fs} {p : Path} {s : List Nat} (h : fs.save p s = .ok fs') :
    fs'.dirs = fs.dirs ∧ fs'.load p = .ok s ∧ (∀ q, q ≠ p → fs'.load q = fs.load q) := by
  unfold Fs.save at h
  split at h
  · cases h
    refine ⟨rfl, ?_, fun q hq => ?_⟩
    · unfold Fs.load
      have : (fs.files.filter fun f => f.1 ≠ p).find? (fun f => f.1 = p) = none := by
        rw [List.find?_eq_none]
        intro x hx
        have := (List.mem_filter.1 hx).2
        simpa using this
      simp only [List.find?_append, this, Option.none_or, List.find?_cons, decide_true]
    · unfold Fs.load
      have e : ((fs.files.filter fun f => f.1 ≠ p) ++ [(p, File.tensor s)]).find? (fun f => f.1 = q) = fs.files.find? fun f => f.1 = q := by
        rw [List.find?_append]
        have e2 : ([(p, File.tensor s)] : List (Path × File)).find? (fun f => f.1 = q) = none := by
          simp [Ne.symm hq]
        rw [e2, Option.or_none]
        induction fs.files with
        | nil => rfl
        | cons x xs ih =>
          rw [List.filter_cons]
          by_cases hx : x.1 = p
          · have h1 : ¬ x.1 = q := fun h => hq (by rw [← h, hx])
            simp only [hx, ne_eq, not_true_eq_false, decide_false, Bool.false_eq_true, if_false]
            rw [List.find?_cons_of_neg (by simpa using h1)]
            exact ih
          · simp only [hx, ne_eq, not_false_eq_true, decide_true, if_true]
            rw [List.find?_cons, List.find?_cons, ih]
      rw [e]
  · cases h

theorem names_save {fs fs' : Fs} {D : Path} {f : String} {s : List Nat} (h : fs.save (D ++ [f]) s = .ok fs') :
    fs'.names D = ((fs.names D).filter fun g => g ≠ f) ++ [f] := by
  unfold Fs.save at h
  split at h
  · cases h
    unfold Fs.names
    rw [List.filterMap_append]
    congr 1
    · induction fs.files with
      | nil => rfl
      | cons x xs ih =>
        rw [List.filter_cons, List.filterMap_cons]
        by_cases hx : x.1 = D ++ [f]
        · simp only [hx, ne_eq, not_true_eq_false, decide_false, Bool.false_eq_true, if_false, List.dropLast_concat, if_true, List.getLast?_concat]
          rw [List.filter_cons]
          simp only [ne_eq, not_true_eq_false, decide_false, Bool.false_eq_true, if_false]
          exact ih
        · simp only [hx, ne_eq, not_false_eq_true, decide_true, if_true]
          rw [List.filterMap_cons]
          by_cases hd : x.1.dropLast = D
          · simp only [hd, if_true]
            rcases hl : x.1.getLast? with _ | g
            · exact ih
            · have hxg : x.1 = D ++ [g] := by
                rw [← hd]
                exact (List.dropLast_append_getLast? g hl).symm
              have hg : g ≠ f := fun e => hx (by rw [hxg, e])
              simp only [List.filter_cons, hg, ne_eq, not_false_eq_true, decide_true, if_true]
              rw [← ih]
          · simp only [hd, if_false]
            exact ih
    · simp
  · cases h

theorem names_other {fs fs' : Fs} {D p : Path} {s : List Nat} (h : fs.save p s = .ok fs') (hp : p.dropLast ≠ D) : fs'.names D = fs.names D := by
  unfold Fs.save at h
  split at h
  · cases h
    unfold Fs.names
    rw [List.filterMap_append]
    have e : ([(p, File.tensor s)] : List (Path × File)).filterMap (fun f => if f.1.dropLast = D then f.1.getLast? else none) = [] := by simp [hp]
    rw [e, List.append_nil]
    induction fs.files with
    | nil => rfl
    | cons x xs ih =>
      rw [List.filter_cons, List.filterMap_cons]
      by_cases hx : x.1 = p
      · simp only [hx, ne_eq, not_true_eq_false, decide_false, Bool.false_eq_true, if_false, hp]
        exact ih
      · simp only [hx, ne_eq, not_false_eq_true, decide_true, if_true]
        rw [List.filterMap_cons, ih]
  · cases h

theorem saveLoop_eq (c : Nat) (hc : 0 < c) (n k : Nat) :
    saveLoop c n k = ((List.range (fileCount n c)).map fun i => ⟨k + i, ((min c (n - i * c) : Nat) : Int)⟩, .ok ()) := by
  induction hn : n using Nat.strong_induction_on generalizing n k with
  | _ m ih =>
    subst hn
    rw [saveLoop]
    by_cases h : n = 0
    · subst h
      simp [fileCount]
    · have h0 : ((n : Int) > 0) := by omega
      have hr : ¬ min (c : Int) n ≤ 0 := by omega
      simp only [h0, if_true, hr, if_false]
      have e : max ((n : Int) - min (c : Int) n) 0 = ((n - c : Nat) : Int) := by omega
      rw [e, ih (n - c) (by omega) (n - c) (k + 1) rfl]
      have hf : fileCount n c = fileCount (n - c) c + 1 := by
        unfold fileCount
        by_cases hle : c ≤ n
        · rw [Nat.mod_eq_sub_mod hle, Nat.div_eq_sub_div hc hle]
          omega
        · push Not at hle
          have : n - c = 0 := by omega
          rw [this, Nat.div_eq_of_lt hle, Nat.mod_eq_of_lt hle, if_neg h]
          simp
      rw [hf, List.range_succ_eq_map, List.map_cons, List.map_map]
      refine Prod.ext ?_ rfl
      refine congrArg₂ List.cons ?_ (List.map_congr_left fun i _ => ?_)
      · simp only [Nat.add_zero, Nat.zero_mul, Nat.sub_zero]
        congr 1
        omega
      · simp only [Function.comp_apply, Nat.succ_eq_add_one]
        have : n - c - i * c = n - (i + 1) * c := by rw [Nat.sub_sub, Nat.add_mul, Nat.one_mul, Nat.add_comm]
        rw [this]
        congr 1
        omega

variable {F : Type}

/-- Saving chunks with different numbers into one directory. -/
theorem saveChunks_ok (a : Args F) (cwd P : Path) (nm : Nat → String) (hnm : Function.Injective nm)
    (hr : ∀ k, resolve cwd (a.savingPath ++ chunkFile a.timesteps.toNat a.numObjects.toNat k) = P ++ [nm k]) (cs : List Chunk) (fs : Fs)
    (hd : P ∈ fs.dirs) (hn : (cs.map Chunk.counter).Nodup) :
    ∃ fs', saveChunks a cwd cs fs = (fs', .ok ()) ∧ fs'.dirs = fs.dirs ∧
      (∀ c ∈ cs, fs'.load (P ++ [nm c.counter]) = .ok [c.size.toNat, a.timesteps.toNat, a.frameSize.toNat, a.frameSize.toNat]) ∧
      (∀ p, (∀ c ∈ cs, p ≠ P ++ [nm c.counter]) → fs'.load p = fs.load p) ∧
      fs'.names P = ((fs.names P).filter fun g => !(cs.map fun c => nm c.counter).contains g) ++ (cs.map fun c => nm c.counter) ∧
      ∀ D, D ≠ P → fs'.names D = fs.names D := by
  induction cs generalizing fs with
  | nil => exact ⟨fs, rfl, rfl, by simp, fun _ _ => rfl, by simp, fun _ _ => rfl⟩
  | cons c cs ih =>
    obtain ⟨fs1, h1⟩ : ∃ fs1, fs.save (P ++ [nm c.counter]) [c.size.toNat, a.timesteps.toNat, a.frameSize.toNat, a.frameSize.toNat] = .ok fs1 := by
      unfold Fs.save
      rw [List.dropLast_concat, if_pos hd]
      exact ⟨_, rfl⟩
    obtain ⟨d1, l1, o1⟩ := load_save h1
    obtain ⟨hnc, hnd⟩ := List.nodup_cons.1 (List.map_cons ▸ hn)
    obtain ⟨fs', h2, h3, h4, h5, h6, h7⟩ := ih fs1 (d1 ▸ hd) hnd
    have hne : ∀ c' ∈ cs, nm c.counter ≠ nm c'.counter := fun c' hc' e => hnc (List.mem_map.2 ⟨c', hc', (hnm e).symm⟩)
    refine ⟨fs', ?_, by rw [h3, d1], ?_, ?_, ?_, ?_⟩
    · rw [saveChunks, hr, h1]
      exact h2
    · intro c' hc'
      rcases List.mem_cons.1 hc' with rfl | hc'
      · rw [h5 _ fun c' hc' e => hne c' hc' (by simpa using e), l1]
      · exact h4 c' hc'
    · intro p hp
      rw [h5 p fun c' hc' => hp c' (List.mem_cons_of_mem _ hc'), o1 p (hp c (by simp))]
    · rw [h6, names_save h1, List.filter_append, List.filter_filter, List.map_cons]
      have e1 : ([nm c.counter] : List String).filter (fun g => !(cs.map fun c => nm c.counter).contains g) = [nm c.counter] := by
        have : (cs.map fun c => nm c.counter).contains (nm c.counter) = false := by
          rw [← Bool.not_eq_true, List.contains_iff_mem, List.mem_map]
          rintro ⟨c', hc', e⟩
          exact hne c' hc' e.symm
        rw [List.filter_cons, this]
        rfl
      rw [e1, List.append_assoc, List.singleton_append]
      congr 1
      refine List.filter_congr fun g _ => ?_
      rw [List.contains_cons]
      generalize (cs.map fun c => nm c.counter).contains g = b
      by_cases hg : g = nm c.counter <;> cases b <;> simp [hg]
    · intro D hD
      rw [h7 D hD, names_other h1 (by rw [List.dropLast_concat]; exact hD.symm)]

end SimMain

namespace Spec
open SimMain

/-- A command line and files with which the simulator can run: the blacklist evaluates to a list, the directory of shapes has enough images
that are not in it, and the numbers are in range. -/
structure Ready {F : Type} (eval : String → Except Err (List String)) (a : Args F) (cwd : Path) (fs : Fs) (T K n c : Nat) : Prop where
  images : ∃ bl files, eval a.blacklistShapes = .ok bl ∧ fs.listdir (resolve cwd a.shapeDir) = .ok files ∧
    K ≤ (files.filter fun f => decide ((".png" : String).toList <:+ f.toList) && !decide (f ∈ bl)).length
  cwd : cwd ∈ fs.dirs
  timesteps : a.timesteps = T
  timesteps_pos : 0 < T
  objects : a.numObjects = K
  objects_three : 3 ≤ K
  instances : a.numInstances = n
  chunk : a.chunkSize = c
  chunk_pos : 0 < c

/-- The file names that training takes. -/
def NameFits (T K : Nat) (f : String) : Prop :=
  (".pt" : String).toList <:+ f.toList ∧ ("timesteps=" ++ toString T ++ "-objects=" ++ toString K).toList <:+: f.toList

instance (T K : Nat) (f : String) : Decidable (NameFits T K f) := inferInstanceAs (Decidable (_ ∧ _))

end Spec

namespace SimMain
variable {F : Type}

theorem resolve_plain (cwd : Path) (f : String) (h1 : '/' ∉ f.toList) (h2 : f.toList ≠ []) (h3 : f.toList ≠ ['.']) : resolve cwd f = cwd ++ [f] := by
  unfold resolve
  rw [Cli.pySplit_plain h1]
  simp [h2, h3]

theorem resolve_mean (cwd : Path) : resolve cwd "mean_shape.pt" = cwd ++ ["mean_shape.pt"] :=
  resolve_plain cwd _ (by decide +kernel) (by decide +kernel) (by decide +kernel)

theorem makedirs_mem (fs : Fs) (D : Path) : D ∈ (fs.makedirs D).dirs := by
  unfold Fs.makedirs
  split
  · assumption
  · exact List.mem_append_right _ ((List.mem_inits D D).2 List.prefix_rfl)

theorem makedirs_sub (fs : Fs) (D P : Path) (h : P ∈ fs.dirs) : P ∈ (fs.makedirs D).dirs := by
  unfold Fs.makedirs
  split
  · exact h
  · exact List.mem_append_left _ h

theorem makedirs_files (fs : Fs) (D : Path) : (fs.makedirs D).files = fs.files := by
  unfold Fs.makedirs
  split <;> rfl

theorem makedirs_load (fs : Fs) (D p : Path) : (fs.makedirs D).load p = fs.load p := by
  unfold Fs.load
  rw [makedirs_files]

theorem makedirs_names (fs : Fs) (D p : Path) : (fs.makedirs D).names p = fs.names p := by
  unfold Fs.names
  rw [makedirs_files]

/-- The run of the script, for chunks saved in the directory P under the names nm. -/
theorem script_ok {eval : String → Except Err (List String)} {a : Args F} {cwd : Path} {fs : Fs} {T K n c : Nat} (h : Ready eval a cwd fs T K n c)
    (P : Path) (nm : Nat → String) (hnm : Function.Injective nm) (hmean : ∀ k, nm k ≠ "mean_shape.pt")
    (hr : ∀ k, resolve cwd (a.savingPath ++ chunkFile T K k) = P ++ [nm k]) (hP : P = cwd ∨ P = resolve cwd a.savingPath) :
    ∃ fs', script eval a cwd fs = (fs', .ok ()) ∧ resolve cwd a.savingPath ∈ fs'.dirs ∧
      fs'.load (cwd ++ ["mean_shape.pt"]) = .ok [side a, side a] ∧
      (∀ i < fileCount n c, fs'.load (P ++ [nm (i + 1)]) = .ok [min c (n - i * c), T, a.frameSize.toNat, a.frameSize.toNat]) ∧
      (∀ p, p ≠ cwd ++ ["mean_shape.pt"] → (∀ i < fileCount n c, p ≠ P ++ [nm (i + 1)]) → fs'.load p = fs.load p) ∧
      (P ≠ cwd → fs'.names P = ((fs.names P).filter fun g => !((List.range (fileCount n c)).map fun i => nm (i + 1)).contains g) ++
        (List.range (fileCount n c)).map fun i => nm (i + 1)) ∧
      ∀ D, D ≠ P → D ≠ cwd → fs'.names D = fs.names D := by
  obtain ⟨⟨bl, files, i1, i2, i3⟩, hc, t1, t2, k1, k2, n1, c1, c2⟩ := h
  have hT : a.timesteps.toNat = T := by omega
  have hK : a.numObjects.toNat = K := by omega
  have hfil : ((files.filter fun f => pyEndsWith f ".png").filter fun f => !bl.contains f) =
      files.filter fun f => decide ((".png" : String).toList <:+ f.toList) && !decide (f ∈ bl) := by
    rw [List.filter_filter]
    refine List.filter_congr fun f _ => ?_
    have e1 : pyEndsWith f ".png" = decide ((".png" : String).toList <:+ f.toList) := by
      unfold pyEndsWith
      rw [Bool.eq_iff_iff, List.isSuffixOf_iff_suffix, decide_eq_true_iff]
    have e2 : bl.contains f = decide (f ∈ bl) := by rw [Bool.eq_iff_iff, List.contains_iff_mem, decide_eq_true_iff]
    rw [e1, e2, Bool.and_comm]
  set paths := files.filter fun f => decide ((".png" : String).toList <:+ f.toList) && !decide (f ∈ bl) with hpaths
  have hne : paths.isEmpty = false := by
    rw [List.isEmpty_eq_false_iff]
    intro h0
    rw [h0] at i3
    simp at i3
    omega
  obtain ⟨fs1, h1⟩ : ∃ fs1, fs.save (cwd ++ ["mean_shape.pt"]) [side a, side a] = .ok fs1 := by
    unfold Fs.save
    rw [List.dropLast_concat, if_pos hc]
    exact ⟨_, rfl⟩
  obtain ⟨d1, l1, o1⟩ := load_save h1
  have hseq : sequenceRaises a paths.length = none := by
    unfold sequenceRaises
    rw [if_neg (by omega), if_neg (by omega), if_neg (by omega), if_neg (by omega), if_neg (by omega)]
  have hsave : simSaveData a.chunkSize a.numInstances = ((List.range (fileCount n c)).map fun i => ⟨1 + i, ((min c (n - i * c) : Nat) : Int)⟩, .ok ()) := by
    rw [c1, n1]
    exact saveLoop_eq c c2 n 1
  have hPd : P ∈ (fs1.makedirs (resolve cwd a.savingPath)).dirs := by
    rcases hP with rfl | rfl
    · exact makedirs_sub _ _ _ (d1 ▸ hc)
    · exact makedirs_mem _ _
  obtain ⟨fs', s1, s2, s3, s4, s5, s6⟩ := saveChunks_ok a cwd P nm hnm (by rw [hT, hK]; exact hr) (simSaveData a.chunkSize a.numInstances).1
    (fs1.makedirs (resolve cwd a.savingPath)) hPd (by
      rw [hsave, List.map_map]
      exact (List.nodup_range).map fun i j e => by simpa using e)
  have hnew : ((simSaveData a.chunkSize a.numInstances).1.map fun c => nm c.counter) = (List.range (fileCount n c)).map fun i => nm (i + 1) := by
    rw [hsave, List.map_map]
    refine List.map_congr_left fun i _ => ?_
    simp [Nat.add_comm]
  refine ⟨fs', ?_, by rw [s2]; exact makedirs_mem _ _, ?_, ?_, ?_, ?_, ?_⟩
  · unfold script saveData
    simp only [i1, i2, hfil, hne, Bool.false_eq_true, if_false, resolve_mean, h1, hseq, s1]
    rw [hsave]
  · rw [s4 _ fun c' _ e => hmean _ (by have := congrArg List.getLast? e; simpa using this.symm), makedirs_load, l1]
  · intro i hi
    have := s3 ⟨1 + i, ((min c (n - i * c) : Nat) : Int)⟩ (by rw [hsave]; exact List.mem_map.2 ⟨i, List.mem_range.2 hi, rfl⟩)
    rw [Nat.add_comm] at this
    rw [this, hT]
    rfl
  · intro p hp hq
    rw [s4 p ?_, makedirs_load, o1 p hp]
    intro c' hc'
    rw [hsave] at hc'
    obtain ⟨i, hi, rfl⟩ := List.mem_map.1 hc'
    simpa [Nat.add_comm] using hq i (List.mem_range.1 hi)
  · intro hPc
    rw [s5, hnew, makedirs_names, names_other h1 (by rw [List.dropLast_concat]; exact hPc.symm)]
  · intro D hD hDc
    rw [s6 D hD, makedirs_names, names_other h1 (by rw [List.dropLast_concat]; exact hDc.symm)]

theorem chunk_injective (T K : Nat) : Function.Injective fun k => chunkFile T K k := fun _ _ e => (C45_names_distinct _ _ _ _ _ _ e).2.2

theorem side_eq (a : Args F) : side a = (a.shapeSize + 2 * max a.paddingSize 0).toNat := by
  unfold side
  split
  · rw [max_eq_left (by omega)]
  · rw [max_eq_right (by omega)]
    simp

/-- C102. What the simulator writes, with a saving path that ends with a slash: the mean shape in the working directory, and ⌈n / c⌉ files in the
directory of videos, with c sequences each but the last, which has the rest. No other file changes; files of earlier runs with the same
numbers are replaced. -/
theorem C102_files {eval : String → Except Err (List String)} {a : Args F} {cwd : Path} {fs : Fs} {T K n c : Nat} (h : Ready eval a cwd fs T K n c)
    (hs : ∃ s, a.savingPath = s ++ "/") :
    ∃ fs', script eval a cwd fs = (fs', .ok ()) ∧ resolve cwd a.savingPath ∈ fs'.dirs ∧
      fs'.load (cwd ++ ["mean_shape.pt"]) = .ok [(a.shapeSize + 2 * max a.paddingSize 0).toNat, (a.shapeSize + 2 * max a.paddingSize 0).toNat] ∧
      (∀ i < fileCount n c, fs'.load (resolve cwd a.savingPath ++ [chunkFile T K (i + 1)]) =
        .ok [min c (n - i * c), T, a.frameSize.toNat, a.frameSize.toNat]) ∧
      (∀ p, p ≠ cwd ++ ["mean_shape.pt"] → (∀ i < fileCount n c, p ≠ resolve cwd a.savingPath ++ [chunkFile T K (i + 1)]) → fs'.load p = fs.load p) ∧
      (resolve cwd a.savingPath ≠ cwd → fs'.names (resolve cwd a.savingPath) =
        ((fs.names (resolve cwd a.savingPath)).filter fun g => !((List.range (fileCount n c)).map fun i => chunkFile T K (i + 1)).contains g) ++
          (List.range (fileCount n c)).map fun i => chunkFile T K (i + 1)) := by
  obtain ⟨s, hs⟩ := hs
  obtain ⟨fs', h1, h2, h3, h4, h5, h6, -⟩ := script_ok h (resolve cwd a.savingPath) (fun k => chunkFile T K k) (chunk_injective T K)
    (fun k => (chunkFile_plain T K k).2.2.2) (fun k => by
      rw [hs]
      exact resolve_slash cwd s _ (chunkFile_plain T K k).1 (chunkFile_plain T K k).2.1 (chunkFile_plain T K k).2.2.1) (.inr rfl)
  refine ⟨fs', h1, h2, ?_, h4, h5, h6⟩
  rw [h3]
  rw [side_eq]

theorem files_split (g : Nat → Nat) (n c : Nat) (hc : 0 < c) : ((List.range (fileCount n c)).map fun i => g (min c (n - i * c))).sum =
    n / c * g c + if n % c = 0 then 0 else g (n % c) := by
  have hm : ∀ i, i < n / c → min c (n - i * c) = c := by
    intro i hi
    have h1 : (i + 1) * c ≤ n / c * c := Nat.mul_le_mul_right c hi
    have h2 := Nat.div_mul_le_self n c
    rw [Nat.add_mul, Nat.one_mul] at h1
    omega
  have hq : ((List.range (n / c)).map fun i => g (min c (n - i * c))).sum = n / c * g c := by
    rw [List.map_congr_left (g := fun _ => g c) fun i hi => by rw [hm i (List.mem_range.1 hi)]]
    simp
  have hmod := Nat.div_add_mod n c
  have hlt := Nat.mod_lt n hc
  unfold fileCount
  split
  · rw [Nat.add_zero, hq, Nat.add_zero]
  · rw [List.range_succ, List.map_append, List.sum_append, hq]
    have : min c (n - n / c * c) = n % c := by
      rw [Nat.mul_comm] at hmod
      omega
    simp [this]

theorem fileCount_pos {n c : Nat} (hn : 0 < n) : 0 < fileCount n c := by
  unfold fileCount
  by_cases hm : n % c = 0
  · rw [if_pos hm]
    have := Nat.div_add_mod n c
    rw [hm] at this
    rcases Nat.eq_zero_or_pos (n / c) with h0 | h0
    · rw [h0] at this
      omega
    · omega
  · rw [if_neg hm]
    exact Nat.succ_pos _

/-- C102. All sequences are saved. -/
theorem C102_all (n c : Nat) (hc : 0 < c) : ((List.range (fileCount n c)).map fun i => min c (n - i * c)).sum = n := by
  rw [files_split (fun x => x) n c hc]
  have := Nat.div_add_mod n c
  split
  · rename_i h
    rw [h] at this
    rw [Nat.mul_comm]
    exact this
  · rw [Nat.mul_comm]
    exact this

/-- C102. Training in a directory R, with a data directory d that means the same directory of videos and the same numbers of time steps and
objects, takes the new files and those older ones whose names fit and that were not replaced. `listing` is what `os.listdir` gives. -/
theorem C102_training {eval : String → Except Err (List String)} {a : Args F} {cwd : Path} {fs fs' : Fs} {T K n c : Nat} (h : Ready eval a cwd fs T K n c)
    (hs : ∃ s, a.savingPath = s ++ "/") (hD : resolve cwd a.savingPath ≠ cwd) (hrun : script eval a cwd fs = (fs', .ok ())) (hn : 0 < n)
    (listing : List String) (hl : listing.Perm (fs'.names (resolve cwd a.savingPath))) :
    ∃ chosen, getDataPaths listing T K = .ok chosen ∧
      chosen.Perm (((fs.names (resolve cwd a.savingPath)).filter fun g => decide (NameFits T K g ∧ ∀ i < fileCount n c, g ≠ chunkFile T K (i + 1))) ++
        (List.range (fileCount n c)).map fun i => chunkFile T K (i + 1)) := by
  obtain ⟨fs1, h1, -, -, -, -, h6⟩ := C102_files h hs
  rw [hrun] at h1
  cases h1
  have h6 := h6 hD
  set new := (List.range (fileCount n c)).map fun i => chunkFile T K (i + 1) with hnew
  have hfit : ∀ f, (pyEndsWith f ".pt" && pyStrIn ("timesteps=" ++ toString T ++ "-objects=" ++ toString K) f) = decide (NameFits T K f) := by
    intro f
    rw [Bool.eq_iff_iff, Bool.and_eq_true, decide_eq_true_iff, pyEndsWith, pyStrIn, List.isSuffixOf_iff_suffix, decide_eq_true_iff]
    rfl
  have hnf : ∀ f ∈ new, NameFits T K f := by
    intro f hf
    obtain ⟨i, -, rfl⟩ := List.mem_map.1 hf
    have := hfit (chunkFile T K (i + 1))
    rw [chunk_ends, (needle_in_chunk T K T K (i + 1)).2 ⟨rfl, List.prefix_rfl⟩] at this
    simpa using this.symm
  have hp : (listing.filter fun f => decide (NameFits T K f)).Perm
      (((fs.names (resolve cwd a.savingPath)).filter fun g => decide (NameFits T K g ∧ ∀ i < fileCount n c, g ≠ chunkFile T K (i + 1))) ++ new) := by
    refine (hl.filter _).trans (List.Perm.of_eq ?_)
    rw [h6, List.filter_append, List.filter_filter]
    congr 1
    · refine List.filter_congr fun g _ => ?_
      have : new.contains g = decide (¬ ∀ i < fileCount n c, g ≠ chunkFile T K (i + 1)) := by
        rw [Bool.eq_iff_iff, List.contains_iff_mem, decide_eq_true_iff, hnew, List.mem_map]
        push Not
        constructor
        · rintro ⟨i, hi, rfl⟩; exact ⟨i, List.mem_range.1 hi, rfl⟩
        · rintro ⟨i, hi, rfl⟩; exact ⟨i, List.mem_range.2 hi, rfl⟩
      rw [this, decide_not, Bool.not_not, ← Bool.decide_and]
    · rw [List.filter_eq_self]
      intro f hf
      simpa using hnf f hf
  have hne : new ≠ [] := by
    rw [hnew, Ne, List.map_eq_nil_iff, List.range_eq_nil]
    exact (fileCount_pos hn).ne'
  refine ⟨_, ?_, hp⟩
  unfold getDataPaths
  simp only [hfit]
  rw [if_neg]
  rw [Bool.not_eq_true, List.isEmpty_eq_false_iff]
  intro h0
  have := hp.length_eq
  rw [h0] at this
  have : new.length = 0 := by
    rw [List.length_append] at this
    simp only [List.length_nil] at this
    omega
  exact hne (List.length_eq_zero_iff.1 this)

/-- C102. A file of an earlier run with the same numbers of time steps and objects and a higher number stays, and is trained on again. -/
theorem C102_stale {eval : String → Except Err (List String)} {a : Args F} {cwd : Path} {fs fs' : Fs} {T K n c : Nat} (h : Ready eval a cwd fs T K n c)
    (hs : ∃ s, a.savingPath = s ++ "/") (hD : resolve cwd a.savingPath ≠ cwd) (hrun : script eval a cwd fs = (fs', .ok ())) (hn : 0 < n)
    (listing : List String) (hl : listing.Perm (fs'.names (resolve cwd a.savingPath))) (j : Nat) (hj : fileCount n c ≤ j)
    (hold : chunkFile T K (j + 1) ∈ fs.names (resolve cwd a.savingPath)) :
    (∃ chosen, getDataPaths listing T K = .ok chosen ∧ chunkFile T K (j + 1) ∈ chosen) ∧
      fs'.load (resolve cwd a.savingPath ++ [chunkFile T K (j + 1)]) = fs.load (resolve cwd a.savingPath ++ [chunkFile T K (j + 1)]) := by
  have hne : ∀ i < fileCount n c, chunkFile T K (j + 1) ≠ chunkFile T K (i + 1) := fun i hi e => by
    have := (C45_names_distinct _ _ _ _ _ _ e).2.2
    omega
  constructor
  · obtain ⟨chosen, h1, h2⟩ := C102_training h hs hD hrun hn listing hl
    refine ⟨chosen, h1, h2.mem_iff.2 (List.mem_append_left _ (List.mem_filter.2 ⟨hold, ?_⟩))⟩
    rw [decide_eq_true_iff]
    refine ⟨⟨?_, ?_⟩, hne⟩
    · have := chunk_ends T K (j + 1)
      rwa [pyEndsWith, List.isSuffixOf_iff_suffix] at this
    · have := (needle_in_chunk T K T K (j + 1)).2 ⟨rfl, List.prefix_rfl⟩
      rwa [pyStrIn, decide_eq_true_iff] at this
  · obtain ⟨fs1, h1, -, -, -, h5, -⟩ := C102_files h hs
    rw [hrun] at h1
    cases h1
    refine h5 _ (fun e => ?_) fun i hi e => hne i hi (by simpa using e)
    have := congrArg List.getLast? e
    simp only [List.getLast?_concat, Option.some.injEq] at this
    exact (chunkFile_plain T K (j + 1)).2.2.2 this

/-- C102. With a saving path without a slash at its end, say "video", the directory is made but stays as it was: the files go into the working
directory, with names that begin with that of the directory. -/
theorem C102_no_slash {eval : String → Except Err (List String)} {a : Args F} {cwd : Path} {fs : Fs} {T K n c : Nat} (h : Ready eval a cwd fs T K n c)
    (h1 : '/' ∉ a.savingPath.toList) (h2 : a.savingPath.toList ≠ []) (h3 : a.savingPath.toList ≠ ['.']) :
    ∃ fs', script eval a cwd fs = (fs', .ok ()) ∧ cwd ++ [a.savingPath] ∈ fs'.dirs ∧ fs'.names (cwd ++ [a.savingPath]) = fs.names (cwd ++ [a.savingPath]) ∧
      ∀ i < fileCount n c, fs'.load (cwd ++ [a.savingPath ++ chunkFile T K (i + 1)]) = .ok [min c (n - i * c), T, a.frameSize.toNat, a.frameSize.toNat] := by
  have hr : resolve cwd a.savingPath = cwd ++ [a.savingPath] := resolve_plain cwd _ h1 h2 h3
  have hlen : ∀ k, 2 ≤ (chunkFile T K k).toList.length := fun k => by
    unfold chunkFile
    simp only [String.toList_append, List.length_append]
    have : ("seq-timesteps=" : String).toList.length = 14 := by decide +kernel
    omega
  obtain ⟨fs', s1, s2, -, s4, -, -, s7⟩ := script_ok h cwd (fun k => a.savingPath ++ chunkFile T K k)
    (fun i j e => chunk_injective T K (by
      have := congrArg String.toList e
      simp only [String.toList_append] at this
      exact String.toList_injective (List.append_cancel_left this)))
    (fun k e => by
      have := congrArg String.toList e
      rw [String.toList_append] at this
      have h := congrArg (List.count '=') this
      have e0 : (chunkFile T K k).toList.count '=' = 0 := by
        have : ("mean_shape.pt" : String).toList.count '=' = 0 := by decide +kernel
        rw [this, List.count_append] at h
        omega
      have e1 : '=' ∈ (chunkFile T K k).toList := by
        unfold chunkFile
        have : '=' ∈ ("seq-timesteps=" : String).toList := by decide +kernel
        simp only [String.toList_append, List.mem_append, this, true_or]
      exact absurd e1 (List.count_eq_zero.1 e0))
    (fun k => resolve_plain cwd _ (by
        rw [String.toList_append, List.mem_append, not_or]
        exact ⟨h1, (chunkFile_plain T K k).1⟩) (by
        rw [String.toList_append]
        simp [h2]) (fun e => by
        have := congrArg List.length e
        rw [String.toList_append, List.length_append] at this
        have := hlen k
        simp at *
        omega)) (.inl rfl)
  exact ⟨fs', s1, hr ▸ s2, s7 _ (by simp) (by simp), s4⟩

/-- C102. Fewer images than objects, fewer than three objects or no time steps: an exception, after the mean shape was replaced and before any
video is saved. -/
theorem C102_raises {eval : String → Except Err (List String)} {a : Args F} {cwd : Path} {fs : Fs} {bl files : List String}
    (h1 : eval a.blacklistShapes = .ok bl) (h2 : fs.listdir (resolve cwd a.shapeDir) = .ok files) (hc : cwd ∈ fs.dirs)
    (hp : ∃ f ∈ files, (".png" : String).toList <:+ f.toList ∧ f ∉ bl) (hn : 0 < a.numInstances) (hch : 0 < a.chunkSize)
    (hbad : a.numObjects < 3 ∨ a.timesteps < 1 ∨
      ((files.filter fun f => decide ((".png" : String).toList <:+ f.toList) && !decide (f ∈ bl)).length : Int) < a.numObjects) :
    ∃ fs' e, script eval a cwd fs = (fs', .error e) ∧
      fs'.load (cwd ++ ["mean_shape.pt"]) = .ok [(a.shapeSize + 2 * max a.paddingSize 0).toNat, (a.shapeSize + 2 * max a.paddingSize 0).toNat] ∧
      (∀ p, p ≠ cwd ++ ["mean_shape.pt"] → fs'.load p = fs.load p) ∧ (e = .index ∨ e = .runtime) ∧
      (0 ≤ a.numObjects → 0 ≤ a.timesteps → e = .index) := by
  have hfil : ((files.filter fun f => pyEndsWith f ".png").filter fun f => !bl.contains f) =
      files.filter fun f => decide ((".png" : String).toList <:+ f.toList) && !decide (f ∈ bl) := by
    rw [List.filter_filter]
    refine List.filter_congr fun f _ => ?_
    have e1 : pyEndsWith f ".png" = decide ((".png" : String).toList <:+ f.toList) := by
      unfold pyEndsWith
      rw [Bool.eq_iff_iff, List.isSuffixOf_iff_suffix, decide_eq_true_iff]
    have e2 : bl.contains f = decide (f ∈ bl) := by rw [Bool.eq_iff_iff, List.contains_iff_mem, decide_eq_true_iff]
    rw [e1, e2, Bool.and_comm]
  set paths := files.filter fun f => decide ((".png" : String).toList <:+ f.toList) && !decide (f ∈ bl) with hpaths
  have hne : paths.isEmpty = false := by
    obtain ⟨f, hf, hf1, hf2⟩ := hp
    rw [List.isEmpty_eq_false_iff]
    refine List.ne_nil_of_mem (a := f) (List.mem_filter.2 ⟨hf, ?_⟩)
    simp [hf2, List.IsSuffix.eq_1] at *
    exact hf1
  obtain ⟨fs1, k1⟩ : ∃ fs1, fs.save (cwd ++ ["mean_shape.pt"]) [side a, side a] = .ok fs1 := by
    unfold Fs.save
    rw [List.dropLast_concat, if_pos hc]
    exact ⟨_, rfl⟩
  obtain ⟨d1, l1, o1⟩ := load_save k1
  obtain ⟨e, he, he1, he2⟩ : ∃ e, sequenceRaises a paths.length = some e ∧ (e = .index ∨ e = .runtime) ∧ (0 ≤ a.numObjects → 0 ≤ a.timesteps → e = .index) := by
    unfold sequenceRaises
    by_cases c1 : a.numObjects < 0
    · exact ⟨_, if_pos c1, .inr rfl, fun h => by omega⟩
    rw [if_neg c1]
    by_cases c2 : a.numObjects < 3
    · exact ⟨_, if_pos c2, .inl rfl, fun _ _ => rfl⟩
    rw [if_neg c2]
    by_cases c3 : a.timesteps < 0
    · exact ⟨_, if_pos c3, .inr rfl, fun _ h => by omega⟩
    rw [if_neg c3]
    by_cases c4 : a.timesteps = 0
    · exact ⟨_, if_pos c4, .inl rfl, fun _ _ => rfl⟩
    rw [if_neg c4, if_pos (by omega)]
    exact ⟨_, rfl, .inl rfl, fun _ _ => rfl⟩
  refine ⟨fs1.makedirs (resolve cwd a.savingPath), e, ?_, by rw [makedirs_load, l1, side_eq], fun p hp => by rw [makedirs_load, o1 p hp], he1, he2⟩
  unfold script saveData
  simp only [h1, h2, hfil, hne, Bool.false_eq_true, if_false, resolve_mean, k1, he]
  rw [if_pos ⟨hn, hch⟩]

open ApgLoop in
/-- C102. Training after the simulator, with the same numbers of time steps and objects, where no file fitted before: it reads every new file
once per epoch and makes ⌊c / b⌋ steps for each full one (one if c ≤ b), likewise for the rest. -/
theorem C102_run {eval : String → Except Err (List String)} {a : Args F} {cwd : Path} {fs fs' : Fs} {T K n c : Nat} (h : Ready eval a cwd fs T K n c)
    (hs : ∃ s, a.savingPath = s ++ "/") (hD : resolve cwd a.savingPath ≠ cwd) (hrun : script eval a cwd fs = (fs', .ok ())) (hn : 0 < n)
    (hold : ∀ f ∈ fs.names (resolve cwd a.savingPath), ¬ NameFits T K f)
    {σ : Type} (M : Machine σ) (E : Setup σ) (R : Path) (d : String) (hv : resolve R (d ++ "/video/") = resolve cwd a.savingPath)
    (hm : resolve R (d ++ "mean_shape.pt") = cwd ++ ["mean_shape.pt"])
    (hload : ∀ p, M.load p = match fs'.load (resolve R p) with | .ok [N, T, _, _] => .ok (N, T) | .ok _ => .error .value | .error e => .error e)
    (hmean : ∀ p, E.meanShape p = (fs'.load (resolve R p)).map fun _ => ())
    (hlist : ∃ l, E.listing (d ++ "/video/") = .ok l ∧ l.Perm (fs'.names (resolve R (d ++ "/video/"))))
    (hmodels : ∃ s, E.models = .ok s) (hbuild : E.build = .ok ()) (hres : E.results = true)
    (hperm : ∀ N s, (M.perm N s).1.Perm (List.range N)) (hshuf : ∀ l s, (M.shuffle l s).1.Perm l) (hstep : ∀ p i s e, (M.step p i s).1 ≠ .error e)
    (budget sweeps m : Int) (hss : sampleSize budget sweeps = .ok m) (hm0 : 0 < m) (epochs b : Nat) (hb : 0 < b) (limit : Int) :
    ∃ evs, trainApg M E budget sweeps T K d epochs b false limit = (evs, none) ∧
      (loads evs).length = epochs * fileCount n c ∧
      (updates evs).length = epochs * (n / c * stepsFor c b + if n % c = 0 then 0 else stepsFor (n % c) b) := by
  obtain ⟨l, hl1, hl2⟩ := hlist
  obtain ⟨s, hs'⟩ := hmodels
  rw [hv] at hl2
  obtain ⟨chosen, hc1, hc2⟩ := C102_training h hs hD hrun hn l hl2
  have hempty : ((fs.names (resolve cwd a.savingPath)).filter fun g => decide (NameFits T K g ∧ ∀ i < fileCount n c, g ≠ chunkFile T K (i + 1))) = [] := by
    rw [List.filter_eq_nil_iff]
    intro f hf
    simp only [decide_eq_true_iff, not_and]
    exact fun h => absurd h (hold f hf)
  rw [hempty, List.nil_append] at hc2
  obtain ⟨fs1, h1, -, h3, h4, -, -⟩ := C102_files h hs
  rw [hrun] at h1
  cases h1
  have hsl : d ++ "/video/" = (d ++ "/video") ++ "/" := by
    apply String.toList_injective
    have : ("/video/" : String).toList = ("/video" : String).toList ++ ("/" : String).toList := by decide +kernel
    simp only [String.toList_append, this, List.append_assoc]
  have hpath : ∀ i < fileCount n c, M.load (d ++ "/video/" ++ chunkFile T K (i + 1)) = .ok (min c (n - i * c), T) := by
    intro i hi
    obtain ⟨p1, p2, p3, -⟩ := chunkFile_plain T K (i + 1)
    rw [hload, hsl, resolve_slash R _ _ p1 p2 p3, ← hsl, hv, h4 i hi]
  have hpaths : (chosen.map fun f => d ++ "/video/" ++ f).Perm ((List.range (fileCount n c)).map fun i => d ++ "/video/" ++ chunkFile T K (i + 1)) := by
    have := hc2.map fun f => d ++ "/video/" ++ f
    rwa [List.map_map] at this
  have hmem : ∀ p ∈ chosen.map fun f => d ++ "/video/" ++ f, ∃ i < fileCount n c, p = d ++ "/video/" ++ chunkFile T K (i + 1) := by
    intro p hp
    obtain ⟨i, hi, rfl⟩ := List.mem_map.1 (hpaths.mem_iff.1 hp)
    exact ⟨i, List.mem_range.1 hi, rfl⟩
  rcases C69_setup M E budget sweeps T K d epochs b false limit with ⟨-, hno⟩ | ⟨m', files', chosen', s', q1, -, -, q4, q5, q6, -, -, q9⟩
  · refine absurd ⟨m, l, chosen, s, hss, hm0, ?_, hl1, hc1, hs', hbuild, .inr hres⟩ hno
    rw [hmean, hm, h3]
    rfl
  rw [hl1] at q4
  cases q4
  rw [hc1] at q5
  cases q5
  set cfg : Config := ⟨epochs, b, T, false, limit, modelVersion T K sweeps m'⟩ with hcfg
  let size : String → Nat := fun p => match M.load p with | .ok (N, _) => N | .error _ => 0
  have hnone : (loop cfg M (chosen.map fun f => d ++ "/video/" ++ f) s').2 = none := by
    by_contra hne
    obtain ⟨e, he⟩ := Option.ne_none_iff_exists'.1 hne
    rcases C69_raises hshuf he with ⟨p, i, s, hst⟩ | ⟨p, hp, hst⟩ | ⟨-, p, hp, N, T', hst, hT⟩ | ⟨-, hb0, -⟩
    · exact hstep p i s e hst
    · obtain ⟨i, hi, rfl⟩ := hmem p hp
      rw [hpath i hi] at hst
      cases hst
    · obtain ⟨i, hi, rfl⟩ := hmem p hp
      rw [hpath i hi] at hst
      cases hst
      exact hT rfl
    · exact hb.ne' hb0
  have hrun := (C69_run (c := cfg) rfl (size := size) hperm hshuf (fun p N T' hp => by simp only [size, hp]) hnone).1
  obtain ⟨u1, u2, -, -⟩ := C69_counts hrun
  refine ⟨_, by rw [q9]; exact Prod.ext rfl hnone, ?_, ?_⟩
  · rw [u2, hpaths.length_eq]
    simp [hcfg]
  · rw [u1, (hpaths.map _).sum_eq, List.map_map]
    have e : ((List.range (fileCount n c)).map ((fun p => if size p ≤ cfg.batchSize then 1 else size p / cfg.batchSize) ∘ fun i => d ++ "/video/" ++ chunkFile T K (i + 1))) =
        (List.range (fileCount n c)).map fun i => stepsFor (min c (n - i * c)) b := by
      refine List.map_congr_left fun i hi => ?_
      simp only [Function.comp_apply, size, hpath i (List.mem_range.1 hi), stepsFor, hcfg]
    rw [e, files_split (fun N => stepsFor N b) n c h.chunk_pos]

/-- C102. The simulator run in the directory dataset and training in its parent, with the defaults of both: the same directory of videos, the same
mean shape, and the same sizes, numbers of time steps and objects. -/
theorem C102_defaults (R : Path) (dv lr : F) :
    let a := defaults dv
    let t := ApgCli.defaults lr
    resolve R (t.dataDir ++ "/video/") = resolve (R ++ ["dataset"]) a.savingPath ∧
      resolve R (t.dataDir ++ "mean_shape.pt") = (R ++ ["dataset"]) ++ ["mean_shape.pt"] ∧
      resolve (R ++ ["dataset"]) a.savingPath ≠ R ++ ["dataset"] ∧ (∃ s, a.savingPath = s ++ "/") ∧
      a.shapeSize + 2 * max a.paddingSize 0 = t.shapePixels ∧ a.frameSize = t.framePixels ∧ a.timesteps = t.timesteps ∧ a.numObjects = t.numObjects := by
  have e1 : ∀ R, resolve R ("./dataset/" ++ "/video/") = R ++ ["dataset", "video"] := fun R => by
    unfold resolve
    exact congrArg (R ++ ·) (by decide +kernel)
  have e2 : ∀ R, resolve R "video/" = R ++ ["video"] := fun R => by
    unfold resolve
    exact congrArg (R ++ ·) (by decide +kernel)
  have e3 : ∀ R, resolve R ("./dataset/" ++ "mean_shape.pt") = R ++ ["dataset", "mean_shape.pt"] := fun R => by
    unfold resolve
    exact congrArg (R ++ ·) (by decide +kernel)
  refine ⟨?_, ?_, ?_, ⟨"video", (show "video/" = "video" ++ "/" by decide +kernel)⟩, (show (20 : Int) + 2 * max 4 0 = 28 by decide), rfl, rfl, rfl⟩
  · exact (e1 R).trans ((e2 _).trans (by simp)).symm
  · exact (e3 R).trans (by simp)
  · rw [show (defaults dv).savingPath = "video/" from rfl, e2]
    simp

/-- The default run: ten files, and with the default batches of 10 a thousand steps for each epoch. -/
example : fileCount 10000 1000 = 10 ∧ (10000 / 1000 * stepsFor 1000 10 + if 10000 % 1000 = 0 then 0 else stepsFor (10000 % 1000) 10) = 1000 := by decide

/-- A directory with three images. -/
def toyFs : Fs := ⟨[[], ["dataset"], ["dataset", "shapes"]], [(["dataset", "shapes", "a.png"], .other), (["dataset", "shapes", "b.png"], .other), (["dataset", "shapes", "c.png"], .other)]⟩

/-- The defaults fit it, without a blacklist. -/
theorem toy_ready (dv : F) : Ready (fun _ => .ok []) (defaults dv) ["dataset"] toyFs 10 3 10000 1000 := by
  refine ⟨⟨[], ["a.png", "b.png", "c.png"], rfl, ?_, ?_⟩, by decide, rfl, by decide, rfl, by decide, rfl, rfl, by decide⟩
  · have e : resolve ["dataset"] (defaults dv).shapeDir = ["dataset", "shapes"] := by
      show resolve ["dataset"] "shapes/" = _
      decide +kernel
    rw [e]
    decide +kernel
  · decide +kernel

example (dv : F) : ∃ fs', script (fun _ => .ok []) (defaults dv) ["dataset"] toyFs = (fs', .ok ()) ∧
    fs'.load ["dataset", "mean_shape.pt"] = .ok [28, 28] ∧ fs'.load ["dataset", "video", chunkFile 10 3 10] = .ok [1000, 10, 96, 96] := by
  obtain ⟨h1, h2, h3, h4, -⟩ := C102_defaults [] dv dv
  obtain ⟨fs', s1, -, s3, s4, -⟩ := C102_files (toy_ready dv) h4
  refine ⟨fs', s1, s3, ?_⟩
  have := s4 9 (by decide)
  have e : resolve ["dataset"] (defaults dv).savingPath = ["dataset", "video"] := by
    show resolve ["dataset"] "video/" = _
    decide +kernel
  rw [e] at this
  exact this

end SimMain
end Verif
