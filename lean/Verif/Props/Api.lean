import Verif.Model.Api
import Verif.Props.Store
/-
  C124-C126: paths, arrays handed out, and read-only results.
-/
namespace Verif.Props
open Verif.Api Verif.Names

section
variable {M H C D : Type}

/-! ### The specification of a session -/

/-- the place a user means by a path: below the working directory, which only the user changes -/
def meant (home : Loc) (p : Path) : Loc := if p.abs then p.parts else home ++ p.parts

/-- the folder of modes below a results folder -/
def modesOf (l : Loc) : Loc := l ++ ["modes"]

/-- What a user expects from each call: every path names the folder `meant`, only `chdir` changes the working directory, and a reconstruction reads the
    folder it is given. -/
def wantCall (project : H → M → D → C) (w : Loc × Disk M H C) : Call D → (Loc × Disk M H C) × Out M C
  | .getAllModes p | .getModes p =>
    (w, match w.2.modes (modesOf (meant w.1 p)) with | some m => .modes m | none => .raised)
  | .coeffs p lb ub d =>
    match w.2.head (meant w.1 p), w.2.modes (modesOf (meant w.1 p)) with
    | some h, some m => ((w.1, w.2.put (meant w.1 p ++ (coeffsPart lb ub).parts) (project h m d)), .folder (join p (coeffsPart lb ub)))
    | _, _ => (w, .raised)
  | .reconstruct c => (w, match w.2.coefs (meant w.1 c) with | some x => .recon x | none => .raised)
  | .chdir p => if w.2.dirs (meant w.1 p) then ((meant w.1 p, w.2), .unit) else (w, .raised)

/-- the outcomes a user expects -/
def wantSession (project : H → M → D → C) : Loc × Disk M H C → List (Call D) → List (Out M C)
  | _, [] => []
  | w, c :: cs => (wantCall project w c).2 :: wantSession project (wantCall project w c).1 cs

/-- the path of a call -/
def callPath : Call D → Path
  | .getAllModes p | .getModes p | .coeffs p _ _ _ | .reconstruct p | .chdir p => p

/-- calls after which the working directory may be another one: `get_all_modes` and the user's own `os.chdir` -/
def moves : Call D → Bool
  | .getAllModes _ | .chdir _ => true
  | _ => false

/-- sessions with absolute paths only from the first call that moves on -/
def absAfterMove : List (Call D) → Prop
  | [] => True
  | c :: cs => if moves c then ∀ c' ∈ cs, (callPath c').abs = true else absAfterMove cs

/-- a folder that has modes exists -/
def goodDisk (s : Disk M H C) : Prop := ∀ l m, s.modes l = some m → s.dirs l = true

theorem goodDisk_put (s : Disk M H C) (h : goodDisk s) (l : Loc) (c : C) : goodDisk (s.put l c) := by
  intro l' m hm
  have := h l' m hm
  simp [Disk.put, this]

theorem join_modes (cwd : Loc) (p : Path) : locate cwd (join p modesPart) = modesOf (meant cwd p) := by
  cases h : p.abs <;> simp [locate, join, modesPart, modesOf, meant, h]

theorem join_coeffs (cwd : Loc) (p : Path) (lb ub : Nat) :
    locate cwd (join p (coeffsPart lb ub)) = meant cwd p ++ (coeffsPart lb ub).parts := by
  cases h : p.abs <;> simp [locate, join, coeffsPart, meant, h]

theorem locate_import (cwd0 cwd : Loc) (p : Path) : locate cwd (fromImport cwd0 p) = meant cwd0 p := by
  cases h : p.abs <;> simp [locate, fromImport, join, meant, h]

theorem meant_abs (a b : Loc) (p : Path) (h : p.abs = true) : meant a p = meant b p := by simp [meant, h]

/-- one call gives what is expected when its path is absolute or all three directories agree; the disks stay the same -/
theorem call_want (project : H → M → D → C) (cwd0 cwd home : Loc) (s : Disk M H C) (hs : goodDisk s) (c : Call D)
    (h : (callPath c).abs = true ∨ (cwd = home ∧ cwd = cwd0)) :
    (call project cwd0 (cwd, s) c).2 = (wantCall project (home, s) c).2 ∧
    (call project cwd0 (cwd, s) c).1.2 = (wantCall project (home, s) c).1.2 ∧
    (moves c = false → (call project cwd0 (cwd, s) c).1.1 = cwd ∧ (wantCall project (home, s) c).1.1 = home) ∧
    goodDisk (call project cwd0 (cwd, s) c).1.2 := by
  have hm : meant cwd (callPath c) = meant home (callPath c) := by
    rcases h with h | ⟨rfl, _⟩
    · exact meant_abs _ _ _ h
    · rfl
  have h0 : meant cwd0 (callPath c) = meant home (callPath c) := by
    rcases h with h | ⟨h1, h2⟩
    · exact meant_abs _ _ _ h
    · rw [← h1, ← h2]
  cases c with
  | getAllModes p =>
    simp only [callPath] at hm
    simp only [call, Api.getAllModes, wantCall, join_modes, hm, moves]
    by_cases hd : s.dirs (modesOf (meant home p)) = true
    · simp only [hd, if_true]
      refine ⟨?_, ?_, ?_, hs⟩ <;> first | rfl | trivial | simp
    · simp only [hd]
      have : s.modes (modesOf (meant home p)) = none := by
        cases hx : s.modes (modesOf (meant home p)) with
        | none => rfl
        | some m => exact absurd (hs _ _ hx) hd
      rw [this]
      refine ⟨?_, ?_, ?_, hs⟩ <;> first | rfl | trivial | simp
  | getModes p =>
    simp only [callPath] at hm
    simp only [call, Api.getModes, wantCall, join_modes, hm, moves]
    refine ⟨?_, ?_, ?_, hs⟩ <;> first | rfl | trivial
  | coeffs p lb ub d =>
    simp only [callPath] at hm h0
    simp only [call, Api.coeffs, wantCall, join_modes, join_coeffs, locate_import, hm, h0, moves]
    cases s.head (meant home p) with
    | none => refine ⟨?_, ?_, ?_, hs⟩ <;> first | rfl | trivial | simp
    | some x =>
      cases s.modes (modesOf (meant home p)) with
      | none => refine ⟨?_, ?_, ?_, hs⟩ <;> first | rfl | trivial | simp
      | some y => refine ⟨?_, ?_, ?_, goodDisk_put s hs _ _⟩ <;> first | rfl | trivial | simp
  | reconstruct p =>
    simp only [callPath] at h0
    simp only [call, Api.reconstruct, wantCall, locate_import, h0, moves]
    refine ⟨?_, ?_, ?_, hs⟩ <;> first | rfl | trivial
  | chdir p =>
    simp only [callPath] at hm
    have : locate cwd p = meant home p := by rw [← hm]; rfl
    simp only [call, wantCall, this, moves]
    by_cases hd : s.dirs (meant home p) = true
    · simp only [hd, if_true]
      refine ⟨?_, ?_, ?_, hs⟩ <;> first | rfl | trivial | simp
    · simp only [hd]
      refine ⟨?_, ?_, ?_, hs⟩ <;> first | rfl | trivial | simp

/-- **C124, partly.** Sessions with absolute paths give what is expected, wherever the process is. -/
theorem session_absolute_partial (project : H → M → D → C) (cwd0 cwd home : Loc) (s : Disk M H C) (hs : goodDisk s) (cs : List (Call D))
    (h : ∀ c ∈ cs, (callPath c).abs = true) : session project cwd0 (cwd, s) cs = wantSession project (home, s) cs := by
  induction cs generalizing cwd home s with
  | nil => rfl
  | cons c cs ih =>
    obtain ⟨h1, h2, _, h4⟩ := call_want project cwd0 cwd home s hs c (Or.inl (h c (by simp)))
    simp only [session, wantSession, h1]
    congr 1
    have := ih (call project cwd0 (cwd, s) c).1.1 (wantCall project (home, s) c).1.1 (call project cwd0 (cwd, s) c).1.2 h4
      (fun c' hc' => h c' (by simp [hc']))
    rw [show (call project cwd0 (cwd, s) c).1 = ((call project cwd0 (cwd, s) c).1.1, (call project cwd0 (cwd, s) c).1.2) from rfl, this, h2]

/-- **C124, partly.** A session of any length in any order of calls, started in the directory of the import, gives what is expected when all paths after
    the first `get_all_modes` or `os.chdir` are absolute. -/
theorem session_partial (project : H → M → D → C) (cwd0 : Loc) (s : Disk M H C) (hs : goodDisk s) (cs : List (Call D))
    (h : absAfterMove cs) : session project cwd0 (cwd0, s) cs = wantSession project (cwd0, s) cs := by
  induction cs generalizing s with
  | nil => rfl
  | cons c cs ih =>
    obtain ⟨h1, h2, h3, h4⟩ := call_want project cwd0 cwd0 cwd0 s hs c (Or.inr ⟨rfl, rfl⟩)
    simp only [session, wantSession, h1]
    congr 1
    simp only [absAfterMove] at h
    split at h
    · have := session_absolute_partial project cwd0 (call project cwd0 (cwd0, s) c).1.1 (wantCall project (cwd0, s) c).1.1
        (call project cwd0 (cwd0, s) c).1.2 h4 cs h
      rw [show (call project cwd0 (cwd0, s) c).1 = ((call project cwd0 (cwd0, s) c).1.1, (call project cwd0 (cwd0, s) c).1.2) from rfl,
        this, h2]
    · rename_i hm
      obtain ⟨g1, g2⟩ := h3 (by simpa using hm)
      have := ih (call project cwd0 (cwd0, s) c).1.2 h4 h
      rw [show (call project cwd0 (cwd0, s) c).1 = ((call project cwd0 (cwd0, s) c).1.1, (call project cwd0 (cwd0, s) c).1.2) from rfl,
        g1, this, h2]
      rw [show (wantCall project (cwd0, s) c).1 = ((wantCall project (cwd0, s) c).1.1, (wantCall project (cwd0, s) c).1.2) from rfl, g2]

/-- **C124, violated.** `get_all_modes` with a relative path: the same call once more looks below the folder of modes. -/
theorem get_all_modes_again (project : H → M → D → C) (cwd0 : Loc) (s : Disk M H C) (p : Path) (hp : p.abs = false)
    (m : M) (hm : s.modes (modesOf (cwd0 ++ p.parts)) = some m) (hd : s.dirs (modesOf (cwd0 ++ p.parts)) = true) :
    session (D := D) project cwd0 (cwd0, s) [.getAllModes p, .getAllModes p] =
      [.modes m, if s.dirs (modesOf (modesOf (cwd0 ++ p.parts) ++ p.parts)) then
        (match s.modes (modesOf (modesOf (cwd0 ++ p.parts) ++ p.parts)) with | some m' => .modes m' | none => .raised) else .raised] := by
  have e : ∀ l : Loc, meant l p = l ++ p.parts := fun l => by simp [meant, hp]
  simp only [session, call, Api.getAllModes, join_modes, e, hd, if_true, hm]
  by_cases h2 : s.dirs (modesOf (modesOf (cwd0 ++ p.parts) ++ p.parts)) = true
  · simp [h2]; rfl
  · simp [h2]

/-- **C124, violated.** So the second call raises where the user expects the same modes. -/
theorem get_all_modes_twice_fails (project : H → M → D → C) (cwd0 : Loc) (s : Disk M H C) (p : Path) (hp : p.abs = false)
    (m : M) (hm : s.modes (modesOf (cwd0 ++ p.parts)) = some m) (hd : s.dirs (modesOf (cwd0 ++ p.parts)) = true)
    (hn : s.dirs (modesOf (modesOf (cwd0 ++ p.parts) ++ p.parts)) = false) :
    session (D := D) project cwd0 (cwd0, s) [.getAllModes p, .getAllModes p] = [.modes m, .raised] ∧
    wantSession (D := D) project (cwd0, s) [.getAllModes p, .getAllModes p] = [.modes m, .modes m] := by
  have e : ∀ l : Loc, meant l p = l ++ p.parts := fun l => by simp [meant, hp]
  constructor
  · rw [get_all_modes_again project cwd0 s p hp m hm hd, hn]; simp
  · simp [wantSession, wantCall, e, hm]

/-- **C124, violated.** A projection after `get_all_modes`, relative path: weights and parameters come from the right folder, modes from the folder of the
    same name below the folder of modes. -/
theorem coeffs_mixed_fails (project : H → M → D → C) (cwd0 : Loc) (s : Disk M H C) (p : Path) (hp : p.abs = false)
    (m' : M) (hh : H) (hd : s.dirs (modesOf (cwd0 ++ p.parts)) = true)
    (hhead : s.head (cwd0 ++ p.parts) = some hh)
    (hm' : s.modes (modesOf (modesOf (cwd0 ++ p.parts) ++ p.parts)) = some m') (lb ub : Nat) (d : D) :
    let w := (call project cwd0 (cwd0, s) (.getAllModes p)).1
    (call project cwd0 w (.coeffs p lb ub d)).1.2.coefs (modesOf (cwd0 ++ p.parts) ++ p.parts ++ (coeffsPart lb ub).parts) =
      some (project hh m' d) := by
  have e : ∀ l : Loc, meant l p = l ++ p.parts := fun l => by simp [meant, hp]
  simp only [call, Api.getAllModes, join_modes, e, hd, if_true, Api.coeffs, locate_import, hhead, hm', join_coeffs, Disk.put]

/-- **C124, violated.** The program itself changes the directory, to `q`: a projection under a relative path then takes weights and parameters from the
    folder below the directory of the import, modes from the folder of the same name below `q`, and writes below `q`. -/
theorem chdir_mixed_fails (project : H → M → D → C) (cwd0 : Loc) (s : Disk M H C) (p q : Path) (hp : p.abs = false)
    (hd : s.dirs (meant cwd0 q) = true) (m' : M) (hh : H) (hhead : s.head (cwd0 ++ p.parts) = some hh)
    (hm' : s.modes (modesOf (meant cwd0 q ++ p.parts)) = some m') (lb ub : Nat) (d : D) :
    let w := (call project cwd0 (cwd0, s) (.chdir q)).1
    (call project cwd0 w (.coeffs p lb ub d)).1.2.coefs (meant cwd0 q ++ p.parts ++ (coeffsPart lb ub).parts) = some (project hh m' d) ∧
      (call project cwd0 w (.getModes p)).2 = .modes m' := by
  have e : ∀ l : Loc, meant l p = l ++ p.parts := fun l => by simp [meant, hp]
  have hq : locate cwd0 q = meant cwd0 q := rfl
  simp only [call, hq, hd, if_true, Api.getModes, join_modes, e, Api.coeffs, locate_import, hhead, hm', join_coeffs, Disk.put, and_self]

/-- **C124, exactly.** A projection followed by the reconstruction from the folder it returned, the process being in `cwd`: what is reconstructed is the
    projection just made exactly when the path is absolute, the process is still in the directory of the import, or the two places happen to hold
    the same. -/
theorem project_reconstruct_exact (project : H → M → D → C) (cwd0 cwd : Loc) (s : Disk M H C) (p : Path) (lb ub : Nat) (d : D) (hh : H) (m : M)
    (hhead : s.head (meant cwd0 p) = some hh) (hm : s.modes (modesOf (meant cwd p)) = some m) :
    session project cwd0 (cwd, s) [.coeffs p lb ub d, .reconstruct (join p (coeffsPart lb ub))] =
        [.folder (join p (coeffsPart lb ub)), .recon (project hh m d)] ↔
      p.abs = true ∨ cwd = cwd0 ∨ s.coefs (meant cwd0 p ++ (coeffsPart lb ub).parts) = some (project hh m d) := by
  have hj : meant cwd0 (join p (coeffsPart lb ub)) = meant cwd0 p ++ (coeffsPart lb ub).parts := by
    cases h : p.abs <;> simp [join, coeffsPart, meant, h]
  simp only [session, call, Api.coeffs, locate_import, hhead, join_modes, hm, join_coeffs, Api.reconstruct, hj, Disk.put,
    List.cons.injEq, true_and, and_true]
  by_cases ha : p.abs = true
  · simp [meant, ha]
  · have ha' : p.abs = false := by simpa using ha
    simp only [meant, ha', Bool.false_eq_true, if_false, false_or, List.append_cancel_right_eq]
    by_cases hc : cwd0 = cwd
    · subst hc; simp
    · rw [if_neg hc]
      constructor
      · intro h
        right
        split at h
        · rename_i x hx; rw [hx]; cases h; rfl
        · cases h
      · rintro (h | h)
        · exact absurd h.symm hc
        · rw [h]

/-- **C124, violated.** In a directory other than that of the import the reconstruction finds nothing, with a relative path and nothing stored there. -/
theorem project_reconstruct_fails (project : H → M → D → C) (cwd0 cwd : Loc) (s : Disk M H C) (p : Path) (lb ub : Nat) (d : D) (hh : H) (m : M)
    (hhead : s.head (meant cwd0 p) = some hh) (hm : s.modes (modesOf (meant cwd p)) = some m) (hp : p.abs = false) (hc : cwd ≠ cwd0)
    (hn : s.coefs (meant cwd0 p ++ (coeffsPart lb ub).parts) = none) :
    session project cwd0 (cwd, s) [.coeffs p lb ub d, .reconstruct (join p (coeffsPart lb ub))] ≠
        [.folder (join p (coeffsPart lb ub)), .recon (project hh m d)] := by
  intro h
  rcases (project_reconstruct_exact project cwd0 cwd s p lb ub d hh m hhead hm).1 h with h | h | h
  · simp [hp] at h
  · exact hc h
  · rw [hn] at h; cases h

/-- a disk with one results folder `/home/res` -/
def oneRes : Disk Nat Nat Nat :=
  ⟨fun l => l = ["home", "res", "modes"], fun l => if l = ["home", "res", "modes"] then some 7 else none,
   fun l => if l = ["home", "res"] then some 3 else none, fun _ => none⟩

example : session (D := Nat) (fun h m d => h * 100 + m * 10 + d) ["home"] (["home"], oneRes)
    [.coeffs ⟨false, ["res"]⟩ 0 4 1, .reconstruct ⟨false, ["res", "coeffs_0_4"]⟩, .getAllModes ⟨false, ["res"]⟩,
      .getAllModes ⟨true, ["home", "res"]⟩, .reconstruct ⟨true, ["home", "res", "coeffs_0_4"]⟩] =
    [.folder ⟨false, ["res", "coeffs_0_4"]⟩, .recon 371, .modes 7, .modes 7, .recon 371] := by decide +kernel

example : absAfterMove (D := Nat) [.coeffs ⟨false, ["res"]⟩ 0 4 1, .reconstruct ⟨false, ["res", "coeffs_0_4"]⟩, .getAllModes ⟨false, ["res"]⟩,
      .getAllModes ⟨true, ["home", "res"]⟩] := by simp [absAfterMove, moves, callPath]

example : session (D := Nat) (fun h m d => h * 100 + m * 10 + d) ["home"] (["home"], oneRes)
    [.getAllModes ⟨false, ["res"]⟩, .getAllModes ⟨false, ["res"]⟩] = [.modes 7, .raised] :=
  (get_all_modes_twice_fails _ _ _ _ rfl 7 (by decide) (by decide) (by decide)).1

end

/-! ### C125: arrays handed out -/

section
variable {α : Type}

/-- all changes, one after the other -/
def changed (gs : List (List α → List α)) (c : List α) : List α := gs.foldl (fun c g => g c) c

theorem updates_mapped (n : Name) (gs : List (List α → List α)) (d : Dir (List α)) (c : List α) (h : d.read n = some c) (n' : Name) :
    ((Handle.mapped n).updates d gs).1.read n' = if n' = n then some (changed gs c) else d.read n' := by
  suffices H : ∀ (d : Dir (List α)) (c : List α), d.read n = some c →
      ((gs.foldl (fun s g => s.2.update s.1 g) (d, Handle.mapped n)).1.read n' = if n' = n then some (changed gs c) else d.read n') from
    H d c h
  clear h
  induction gs with
  | nil =>
    intro d c h
    by_cases e : n' = n
    · subst e; simp [changed, h]
    · simp [e]
  | cons g gs ih =>
    intro d c h
    have h1 : (d.write n (g ((Handle.mapped n).value d))).read n = some (g c) := by
      rw [read_write, if_pos rfl]; simp [Handle.value, h]
    have := ih (d.write n (g ((Handle.mapped n).value d))) (g c) h1
    simp only [List.foldl_cons]
    rw [show Handle.update d (Handle.mapped n) g = (d.write n (g ((Handle.mapped n).value d)), Handle.mapped n) from rfl, this, read_write]
    by_cases e : n' = n
    · simp [e, changed]
    · simp [e]

theorem updates_own (c : List α) (gs : List (List α → List α)) (d : Dir (List α)) :
    ((Handle.own c).updates d gs).1 = d := by
  unfold Handle.updates
  induction gs generalizing c with
  | nil => rfl
  | cons g gs ih => exact ih (g c)

/-- **C125, violated.** Where the modes of a frequency are in one file, any in-place change of the array that `get_modes_at_freq` returned is a change of
    the stored modes: the next call returns the changed modes; other files are as before. -/
theorem modes_alias_file (d : Dir (List α)) (f : Nat) (c : List α) (h : d.read (freqName f) = some c) (gs : List (List α → List α)) :
    ∃ hd, openModes d f = some hd ∧ hd.value d = c ∧ Store.getModes (hd.updates d gs).1 f = some (changed gs c) ∧
      ∀ n, n ≠ freqName f → (hd.updates d gs).1.read n = d.read n := by
  refine ⟨.mapped (freqName f), by simp [openModes, h], by simp [Handle.value, h], ?_, fun n hn => ?_⟩
  · have := updates_mapped (freqName f) gs d c h (freqName f)
    simp only [if_true] at this
    simp [Store.getModes, this]
  · rw [updates_mapped (freqName f) gs d c h n, if_neg hn]

/-- **C125, violated.** So the stored modes stay as they are only when the change is none. -/
theorem modes_alias_fails (d : Dir (List α)) (f : Nat) (c : List α) (h : d.read (freqName f) = some c) (g : List α → List α) (hg : g c ≠ c) :
    ∃ hd, openModes d f = some hd ∧ Store.getModes (hd.updates d [g]).1 f ≠ Store.getModes d f := by
  obtain ⟨hd, h1, _, h3, _⟩ := modes_alias_file d f c h [g]
  refine ⟨hd, h1, ?_⟩
  rw [h3]
  simp only [Store.getModes, h]
  simpa [changed] using hg

/-- **C125, partly.** Where each mode has its own file, and for `get_all_modes`, the caller may change the array at will: the folder stays as it is. -/
theorem modes_copy_partial (d : Dir (List α)) (f : Nat) (h : d.read (freqName f) = none) (hd : Handle α) (ho : openModes d f = some hd)
    (gs : List (List α → List α)) : (hd.updates d gs).1 = d ∧ Store.getModes d f = some (hd.value d) := by
  simp only [openModes, h] at ho
  cases hx : Store.getModes d f with
  | none => rw [hx] at ho; cases ho
  | some c =>
    rw [hx] at ho
    simp only [Option.map_some, Option.some.injEq] at ho
    subst ho
    exact ⟨updates_own c gs d, rfl⟩

/-- **C125, partly.** `get_all_modes` returns a copy. -/
theorem all_modes_copy (d : Dir (List α)) (hs : List (Handle α)) (ho : openAll d = some hs) (hd : Handle α) (hm : hd ∈ hs)
    (gs : List (List α → List α)) : (hd.updates d gs).1 = d ∧ Store.getAllModes d = some (hs.map (·.value d)) := by
  unfold openAll at ho
  cases hx : Store.getAllModes d with
  | none => rw [hx] at ho; cases ho
  | some cs =>
    rw [hx] at ho
    simp only [Option.map_some, Option.some.injEq] at ho
    subst ho
    rw [List.mem_map] at hm
    obtain ⟨c, _, rfl⟩ := hm
    refine ⟨updates_own c gs d, ?_⟩
    simp [Handle.value, Function.comp_def]

example : ∃ hd, openModes [(freqName 3, [1, 2])] 3 = some hd ∧
    Store.getModes (hd.updates [(freqName 3, [1, 2])] [List.map (· * 2)]).1 3 ≠ Store.getModes [(freqName 3, [1, 2])] 3 :=
  modes_alias_fails _ 3 [1, 2] (by decide +kernel) _ (by decide)

/-! ### C126: read-only results -/

/-- the files without their permissions -/
def contents (d : Dir (RFile α)) : Dir (List α) := d.map fun e => (e.1, e.2.content)

theorem contents_read (d : Dir (RFile α)) (n : Name) : (contents d).read n = (d.read n).map (·.content) := by
  simp only [contents, Dir.read, List.find?_map, Option.map_map]
  congr 1

/-- **C126, exactly.** `get_modes_at_freq` returns the stored modes of a folder exactly when the file of the frequency, if there is one, may be written
    to. -/
theorem readonly_modes_exact (d : Dir (RFile α)) (f : Nat) :
    readModes d f = Store.getModes (contents d) f ↔ ∀ c, d.read (freqName f) = some c → c.writable = true := by
  unfold readModes
  cases hr : d.read (freqName f) with
  | none => simp [contents]
  | some c =>
    have hc : (contents d).read (freqName f) = some c.content := by rw [contents_read, hr]; rfl
    have : Store.getModes (contents d) f = some c.content := by simp [Store.getModes, hc]
    rw [this]
    simp only [memmap, Option.some.injEq, forall_eq']
    cases c.writable <;> simp

/-- **C126, violated.** Modes and weights in files without permission to write cannot be read. -/
theorem readonly_fails (d : Dir (RFile α)) (f : Nat) (c : RFile α) (hr : d.read (freqName f) = some c) (hw : c.writable = false) (w : RFile α)
    (hww : w.writable = false) : readModes d f = none ∧ readWeights w = none ∧ (Store.getModes (contents d) f).isSome := by
  have hc : (contents d).read (freqName f) = some c.content := by rw [contents_read, hr]; rfl
  refine ⟨?_, ?_, ?_⟩
  · simp [readModes, hr, memmap, hw]
  · simp [readWeights, memmap, hww]
  · simp [Store.getModes, hc]

/-- **C126, partly.** With permission to write everything is read as stored. -/
theorem readonly_partial (d : Dir (RFile α)) (f : Nat) (h : ∀ e ∈ d, e.2.writable = true) (w : RFile α) (hw : w.writable = true) :
    readModes d f = Store.getModes (contents d) f ∧ readWeights w = some w.content := by
  refine ⟨?_, by simp [readWeights, memmap, hw]⟩
  unfold readModes
  cases hr : d.read (freqName f) with
  | none => rfl
  | some c =>
    have hc : (contents d).read (freqName f) = some c.content := by rw [contents_read, hr]; rfl
    have hmem : c.writable = true := by
      simp only [Dir.read, Option.map_eq_some_iff] at hr
      obtain ⟨e, he, rfl⟩ := hr
      exact h e (List.mem_of_find?_eq_some he)
    simp [Store.getModes, hc, memmap, hmem]

example : readModes [(freqName 0, ⟨[1, 2], false⟩)] 0 = none ∧ readWeights (⟨[1], false⟩ : RFile Nat) = none :=
  let h := readonly_fails [(freqName 0, (⟨[1, 2], false⟩ : RFile Nat))] 0 ⟨[1, 2], false⟩ (by decide +kernel) rfl ⟨[1], false⟩ rfl
  ⟨h.1, h.2.1⟩

end

end Verif.Props
