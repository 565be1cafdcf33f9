import Verif.Model.Objects
import Verif.Props.Crash
import Mathlib.Data.List.Basic
/-
  C127-C131: methods of objects over histories, folders that are overwritten, interrupted runs, the dictionary of parameters.
-/
namespace Verif.Props
open Verif.Api Verif.Objects Verif.Cache

/-! ### C127: arguments of the methods -/

section
variable {C D : Type}

/-- the band of the last projection by object `o` in a history (specification) -/
def lastBand (o : Nat) : List (MCall D) → Option (Nat × Nat)
  | [] => none
  | c :: cs => (lastBand o cs).or (match c with | .coeffs o' _ lb ub _ => if o' = o then some (lb, ub) else none | _ => none)

/-- the folder of coefficients of object `o` and a band -/
def bandFolder (results : Loc) (b : Nat × Nat) : Loc := results ++ (coeffsPart b.1 b.2).parts

theorem mcalls_results (project : Loc → D → C) (w : World C) (cs : List (MCall D)) (o : Nat) :
    ((mcalls project w cs).objs o).results = (w.objs o).results := by
  induction cs generalizing w with
  | nil => rfl
  | cons c cs ih =>
    simp only [mcalls, List.foldl_cons] at ih ⊢
    rw [ih]
    cases c with
    | coeffs o' r lb ub d =>
      simp only [mcall, Objects.set]
      by_cases h : o = o'
      · subst h; simp
      · simp [h]
    | reconstruct o' c => simp only [mcall]; cases (w.objs o').coeffsDir <;> rfl

theorem mcalls_dir (project : Loc → D → C) (w : World C) (cs : List (MCall D)) (o : Nat) :
    ((mcalls project w cs).objs o).coeffsDir =
      ((lastBand o cs).map (bandFolder (w.objs o).results)).or (w.objs o).coeffsDir := by
  induction cs generalizing w with
  | nil => simp [mcalls, lastBand]
  | cons c cs ih =>
    have hr := mcalls_results project w [c] o
    simp only [mcalls, List.foldl_cons, List.foldl_nil] at ih hr ⊢
    rw [ih, hr]
    simp only [lastBand]
    cases hl : lastBand o cs with
    | some b => simp
    | none =>
      simp only [Option.map_none, Option.none_or]
      cases c with
      | coeffs o' r lb ub d =>
        simp only [mcall, Objects.set]
        by_cases h : o' = o
        · subst h; simp [bandFolder]
        · have h' : ¬ o = o' := fun e => h e.symm
          simp [h, h']
      | reconstruct o' c =>
        simp only [mcall]
        cases (w.objs o').coeffsDir <;> simp

/-- **C127, exactly.** After any history of calls on any number of objects, a reconstruction by an object raises when that object computed no coefficients
    before, and otherwise uses the folder of the object's last projection, whatever folder is passed. -/
theorem method_reconstruct_exact (project : Loc → D → C) (w : World C) (cs : List (MCall D)) (o : Nat) (h0 : (w.objs o).coeffsDir = none)
    (c : Loc) :
    (mcall project (mcalls project w cs) (.reconstruct o c)).2 =
      (lastBand o cs).bind fun b => (mcalls project w cs).coefs (bandFolder (w.objs o).results b) := by
  have h := mcalls_dir project w cs o
  rw [h0, Option.or_none] at h
  simp only [mcall, h]
  cases lastBand o cs <;> rfl

/-- **C127, exactly.** A projection by an object uses the modes of this object's own fit, whatever folder is passed. -/
theorem method_project_exact (project : Loc → D → C) (w : World C) (cs : List (MCall D)) (o : Nat) (r : Loc) (lb ub : Nat) (d : D) :
    (mcall project (mcalls project w cs) (.coeffs o r lb ub d)).2 = some (project (w.objs o).results d) := by
  simp only [mcall, mcalls_results]

/-- **C127, violated.** Projection on the modes in another folder. -/
theorem method_project_fails (project : Loc → D → C) (w : World C) (o : Nat) (r : Loc) (lb ub : Nat) (d : D)
    (h : project (w.objs o).results d ≠ project r d) :
    (mcall project w (.coeffs o r lb ub d)).2 ≠ some (project r d) := by
  simpa [mcall] using h

/-- **C127, violated.** Two projections on different bands, then the reconstruction from the first folder: the second one is used. -/
theorem method_reconstruct_fails (project : Loc → D → C) (w : World C) (o : Nat) (b b' : Nat × Nat) (d d' : D)
    (hb : bandFolder (w.objs o).results b ≠ bandFolder (w.objs o).results b')
    (h : project (w.objs o).results d ≠ project (w.objs o).results d') :
    let w' := mcalls project w [.coeffs o (w.objs o).results b.1 b.2 d, .coeffs o (w.objs o).results b'.1 b'.2 d']
    w'.coefs (bandFolder (w.objs o).results b) = some (project (w.objs o).results d) ∧
    (mcall project w' (.reconstruct o (bandFolder (w.objs o).results b))).2 = some (project (w.objs o).results d') ∧
    (mcall project w' (.reconstruct o (bandFolder (w.objs o).results b))).2 ≠ w'.coefs (bandFolder (w.objs o).results b) := by
  have hb' : ¬ ((w.objs o).results ++ (coeffsPart b.1 b.2).parts = (w.objs o).results ++ (coeffsPart b'.1 b'.2).parts) := hb
  have h1 : (mcalls project w [.coeffs o (w.objs o).results b.1 b.2 d, .coeffs o (w.objs o).results b'.1 b'.2 d']).coefs
      (bandFolder (w.objs o).results b) = some (project (w.objs o).results d) := by
    simp only [mcalls, List.foldl_cons, List.foldl_nil, mcall, Objects.set, bandFolder, if_true]
    rw [if_neg hb']
  have h2 : (mcall project (mcalls project w [.coeffs o (w.objs o).results b.1 b.2 d, .coeffs o (w.objs o).results b'.1 b'.2 d'])
      (.reconstruct o (bandFolder (w.objs o).results b))).2 = some (project (w.objs o).results d') := by
    simp [mcalls, mcall, Objects.set]
  refine ⟨h1, h2, ?_⟩
  rw [h1, h2]
  simpa using fun e => h e.symm

/-- **C127, partly.** With the object's own folder and the folder of its last projection the methods do what is asked for. -/
theorem method_partial (project : Loc → D → C) (w : World C) (cs : List (MCall D)) (o : Nat) (h0 : (w.objs o).coeffsDir = none) (b : Nat × Nat)
    (hl : lastBand o cs = some b) :
    (mcall project (mcalls project w cs) (.reconstruct o (bandFolder (w.objs o).results b))).2 =
      (mcalls project w cs).coefs (bandFolder (w.objs o).results b) := by
  rw [method_reconstruct_exact project w cs o h0, hl]; rfl

example : (mcall (fun _ (d : Nat) => d) (mcalls (fun _ d => d) ⟨fun _ => ⟨["r"], none⟩, fun _ => none⟩
    [.coeffs 0 ["other"] 0 4 10, .reconstruct 0 [], .coeffs 1 [] 2 3 20, .coeffs 0 [] 1 4 30]) (.reconstruct 0 ["r", "coeffs_0_4"])).2 = some 30 := by
  decide +kernel

end

/-! ### C128: folders that are overwritten -/

section
variable {C D : Type}

theorem coeffsPart_inj (a b a' b' : Nat) (h : (coeffsPart a b).parts = (coeffsPart a' b').parts) : a = a' ∧ b = b' := by
  simp only [coeffsPart, List.cons.injEq, and_true] at h
  have h1 : ("coeffs_" ++ toString a ++ "_" ++ toString b).toList = ("coeffs_" ++ toString a' ++ "_" ++ toString b').toList := by rw [h]
  have e : ∀ n : Nat, (toString n).toList = Nat.toDigits 10 n := fun n => Nat.toList_repr
  simp only [String.toList_append, e, List.append_assoc] at h1
  rw [List.append_cancel_left_eq] at h1
  have hu : ∀ (l l' r r' : List Char), '_' ∉ l → '_' ∉ l' → l ++ ("_".toList ++ r) = l' ++ ("_".toList ++ r') → l = l' ∧ r = r' := by
    intro l
    induction l with
    | nil =>
      intro l' r r' _ h2 h3
      cases l' with
      | nil => exact ⟨rfl, by simpa using h3⟩
      | cons x l' =>
        simp at h3 h2
        exact absurd h3.1 h2.1
    | cons x l ih =>
      intro l' r r' h1 h2 h3
      cases l' with
      | nil =>
        simp at h3 h1
        exact absurd h3.1.symm h1.1
      | cons y l' =>
        simp only [List.cons_append, List.cons.injEq] at h3
        simp only [List.mem_cons, not_or] at h1 h2
        obtain ⟨g1, g2⟩ := ih l' r r' h1.2 h2.2 h3.2
        exact ⟨by rw [h3.1, g1], g2⟩
  obtain ⟨g1, g2⟩ := hu _ _ _ _ Nat.underscore_not_in_toDigits Nat.underscore_not_in_toDigits h1
  have inj : ∀ m n : Nat, Nat.toDigits 10 m = Nat.toDigits 10 n → m = n := by
    intro m n h
    rw [← Nat.ofDigitChars_ten_toDigits (n := m), h, Nat.ofDigitChars_ten_toDigits]
  exact ⟨inj _ _ g1, inj _ _ g2⟩

/-- Projections of one fit share a folder exactly when band and `savedir` agree. -/
theorem folder_same (p q : Projection D) (h : p.results = q.results) :
    p.folder = q.folder ↔ p.lb = q.lb ∧ p.ub = q.ub ∧ p.savedir = q.savedir := by
  constructor
  · intro hf
    simp only [Projection.folder, h, List.append_assoc, List.append_cancel_left_eq] at hf
    have h1 : (coeffsPart p.lb p.ub).parts = (coeffsPart q.lb q.ub).parts ∧ p.savedir.toList = q.savedir.toList :=
      List.append_inj hf (by simp [coeffsPart])
    obtain ⟨g1, g2⟩ := coeffsPart_inj _ _ _ _ h1.1
    refine ⟨g1, g2, ?_⟩
    have := h1.2
    cases hp : p.savedir <;> cases hq : q.savedir <;> simp_all
  · rintro ⟨h1, h2, h3⟩
    simp [Projection.folder, h, h1, h2, h3]

/-- **C128, exactly.** After any history of projections a folder holds the last one made into it. -/
theorem folders_exact (run : Projection D → C) (ps : List (Projection D)) (l : Loc) :
    folders run ps l = ((ps.filter fun p => decide (p.folder = l)).getLast?).map run := by
  suffices H : ∀ (s : Loc → Option C), ps.foldl (fun s p => Objects.set s p.folder (some (run p))) s l =
      (((ps.filter fun p => decide (p.folder = l)).getLast?).map run).or (s l) by
    have := H (fun _ => none)
    simpa [folders] using this
  induction ps with
  | nil => intro s; simp
  | cons p ps ih =>
    intro s
    rw [List.foldl_cons, ih]
    by_cases h : p.folder = l
    · rw [List.filter_cons_of_pos (by simp [h])]
      cases hf : (ps.filter fun p => decide (p.folder = l)) with
      | nil => simp [Objects.set, h]
      | cons q qs => simp [List.getLast?_cons]
    · rw [List.filter_cons_of_neg (by simp [h])]
      have h' : ¬ l = p.folder := fun e => h e.symm
      simp [Objects.set, h']

/-- **C128, partly.** The coefficients of a projection stay until another projection of the same fit with the same band and the same `savedir`. -/
theorem projection_kept_partial (run : Projection D → C) (before later : List (Projection D)) (p : Projection D)
    (hr : ∀ q ∈ later, q.results = p.results) (h : ∀ q ∈ later, ¬ (q.lb = p.lb ∧ q.ub = p.ub ∧ q.savedir = p.savedir)) :
    folders run (before ++ p :: later) p.folder = some (run p) := by
  rw [folders_exact]
  have : later.filter (fun q => decide (q.folder = p.folder)) = [] := by
    rw [List.filter_eq_nil_iff]
    intro q hq
    simpa using fun e => h q hq ((folder_same q p (hr q hq)).1 e)
  simp [List.filter_append, this]

/-- **C128, violated.** A projection with the same band and `savedir`, say of other data or by convolution, replaces it. -/
theorem projection_overwritten_fails (run : Projection D → C) (before : List (Projection D)) (p q : Projection D)
    (hk : q.results = p.results ∧ q.lb = p.lb ∧ q.ub = p.ub ∧ q.savedir = p.savedir) (h : run q ≠ run p) :
    folders run (before ++ [p, q]) p.folder = some (run q) ∧ folders run (before ++ [p, q]) p.folder ≠ some (run p) := by
  have hf : q.folder = p.folder := (folder_same q p hk.1).2 hk.2
  have : folders run (before ++ [p, q]) p.folder = some (run q) := by
    rw [folders_exact]
    simp [List.filter_append, hf]
  exact ⟨this, by rw [this]; simpa using h⟩

/-- **C128, exactly, for reconstructions.** A file holds the last reconstruction written to it. -/
theorem recon_files_exact (run : Recon D → C) (rs : List (Recon D)) (l : Loc) :
    reconFiles run rs l = ((rs.filter fun r => decide (r.file = l)).getLast?).map run := by
  suffices H : ∀ (s : Loc → Option C), rs.foldl (fun s r => Objects.set s r.file (some (run r))) s l =
      (((rs.filter fun r => decide (r.file = l)).getLast?).map run).or (s l) by
    have := H (fun _ => none)
    simpa [reconFiles] using this
  induction rs with
  | nil => intro s; simp
  | cons p ps ih =>
    intro s
    rw [List.foldl_cons, ih]
    by_cases h : p.file = l
    · rw [List.filter_cons_of_pos (by simp [h])]
      cases hf : (ps.filter fun p => decide (p.file = l)) with
      | nil => simp [Objects.set, h]
      | cons q qs => simp [List.getLast?_cons]
    · rw [List.filter_cons_of_neg (by simp [h])]
      have h' : ¬ l = p.file := fun e => h e.symm
      simp [Objects.set, h']

/-- **C128, violated, for reconstructions.** Two reconstructions of the same coefficients at different times, without `filename`: the second replaces the
    first.  Different file names keep both. -/
theorem recon_overwritten_fails (run : Recon D → C) (c : Loc) (sd : Option String) (d d' : D) (h : run ⟨c, sd, none, d⟩ ≠ run ⟨c, sd, none, d'⟩) :
    reconFiles run [⟨c, sd, none, d⟩, ⟨c, sd, none, d'⟩] (Recon.file ⟨c, sd, none, d⟩) ≠ some (run ⟨c, sd, none, d⟩) := by
  rw [recon_files_exact]
  have h' : ¬ run ⟨c, sd, none, d'⟩ = run ⟨c, sd, none, d⟩ := fun e => h e.symm
  simp [Recon.file, h']

/-- **C128, partly, for reconstructions.** A reconstruction stays until another one from the same folder with the same `savedir` and file name. -/
theorem recon_kept_partial (run : Recon D → C) (before later : List (Recon D)) (r : Recon D)
    (h : ∀ q ∈ later, q.coeffs = r.coeffs ∧
      ¬ (q.savedir = r.savedir ∧ q.filename.getD "reconstructed" = r.filename.getD "reconstructed")) :
    reconFiles run (before ++ r :: later) r.file = some (run r) := by
  rw [recon_files_exact]
  have : later.filter (fun q => decide (q.file = r.file)) = [] := by
    rw [List.filter_eq_nil_iff]
    intro q hq
    obtain ⟨h1, h2⟩ := h q hq
    simp only [Recon.file, h1, List.append_assoc, List.append_cancel_left_eq, decide_eq_true_eq]
    intro e
    apply h2
    have h3 : (q.filename.getD "reconstructed" ++ ".npy") = (r.filename.getD "reconstructed" ++ ".npy") ∧ q.savedir = r.savedir := by
      cases hq' : q.savedir <;> cases hr' : r.savedir <;> simp [hq', hr'] at e ⊢
      · exact e
      · exact ⟨e.2, e.1⟩
    refine ⟨h3.2, ?_⟩
    have : (q.filename.getD "reconstructed" ++ ".npy").toList = (r.filename.getD "reconstructed" ++ ".npy").toList := by rw [h3.1]
    simp only [String.toList_append, List.append_cancel_right_eq] at this
    exact String.toList_inj.1 this
  simp [List.filter_append, this]

example : reconFiles (C := Nat) (fun r => r.input) [⟨["c"], none, none, 1⟩, ⟨["c"], some "b", none, 2⟩, ⟨["c"], none, some "f", 3⟩]
    ["c", "reconstructed.npy"] = some 1 :=
  recon_kept_partial (fun r => r.input) [] [⟨["c"], some "b", none, 2⟩, ⟨["c"], none, some "f", 3⟩] ⟨["c"], none, none, 1⟩ (by simp)

example : folders (C := Nat) (fun p => p.input) [⟨["r"], 0, 4, none, 1⟩, ⟨["r"], 0, 4, some "b", 2⟩, ⟨["r"], 1, 4, none, 3⟩] ["r", "coeffs_0_4"] = some 1 :=
  projection_kept_partial (fun p => p.input) [] [⟨["r"], 0, 4, some "b", 2⟩, ⟨["r"], 1, 4, none, 3⟩] ⟨["r"], 0, 4, none, 1⟩ (by simp) (by simp)

end

/-! ### C129, C130: interrupted runs -/

section
variable {κ α : Type} [DecidableEq κ]

theorem interrupted_other (s : κ → FileState α) (files : List (κ × α)) (n : Nat) (k : κ) (h : k ∉ files.map (·.1)) :
    interrupted s files n k = s k := by
  induction files generalizing s n with
  | nil => simp [interrupted, kops]
  | cons e l ih =>
    obtain ⟨k', c⟩ := e
    simp only [List.map_cons, List.mem_cons, not_or] at h
    simp only [interrupted, kops, List.flatMap_cons] at ih ⊢
    match n with
    | 0 => rfl
    | 1 => simp [kstep, Objects.set, h.1]
    | n + 2 =>
      simp only [List.cons_append, List.nil_append, List.take_succ_cons, List.foldl_cons]
      rw [ih _ _ h.2]
      simp [kstep, Objects.set, h.1]

/-- the state of the `i`-th file of a run interrupted after `n` operations -/
theorem interrupted_at (s : κ → FileState α) (files : List (κ × α)) (hn : (files.map (·.1)).Nodup) (n i : Nat) (k : κ) (c : α)
    (h : files[i]? = some (k, c)) :
    interrupted s files n k = if n ≤ 2 * i then s k else if n = 2 * i + 1 then .incomplete else .complete c := by
  induction files generalizing s n i with
  | nil => simp at h
  | cons e l ih =>
    obtain ⟨k', c'⟩ := e
    rw [List.map_cons, List.nodup_cons] at hn
    cases i with
    | zero =>
      simp only [List.getElem?_cons_zero, Option.some.injEq, Prod.mk.injEq] at h
      obtain ⟨rfl, rfl⟩ := h
      match n with
      | 0 => simp [interrupted]
      | 1 => simp [interrupted, kops, kstep, Objects.set]
      | n + 2 =>
        have hr := interrupted_other (kstep (kstep s (.open_ k')) (.done k' c')) l n k' hn.1
        simp only [interrupted, kops] at hr
        simp only [interrupted, kops, List.flatMap_cons, List.cons_append, List.nil_append, List.take_succ_cons, List.foldl_cons]
        rw [hr]
        simp [kstep, Objects.set]
    | succ i =>
      simp only [List.getElem?_cons_succ] at h
      have hmem : k ∈ l.map (·.1) := List.mem_map_of_mem (f := (·.1)) (List.mem_of_getElem? h)
      have hne : ¬ k = k' := by rintro rfl; exact hn.1 hmem
      match n with
      | 0 => simp [interrupted]
      | 1 => simp [interrupted, kops, kstep, Objects.set, hne]
      | n + 2 =>
        have := ih (kstep (kstep s (.open_ k')) (.done k' c')) hn.2 n i h
        simp only [interrupted, kops] at this
        simp only [interrupted, kops, List.flatMap_cons, List.cons_append, List.nil_append, List.take_succ_cons, List.foldl_cons]
        rw [this]
        have e1 : (n + 2 ≤ 2 * (i + 1)) ↔ n ≤ 2 * i := by omega
        have e2 : (n + 2 = 2 * (i + 1) + 1) ↔ n = 2 * i + 1 := by omega
        simp [kstep, Objects.set, hne, e1, e2]

/-- files of a projection in a given order -/
def coefFiles (order : List CoefFile) (new : CoefFile → α) : List (CoefFile × α) := order.map fun f => (f, new f)

/-- the arrays of a projection -/
def arrays (v : CoefFile → α) : α × α × α := (v .modes, v .mean, v .coeffs)

/-- **C129, partly.** A projection into a new folder, SPOD or POD, interrupted at any point: a later reconstruction raises, or (everything but the
    parameter file being complete) uses exactly the arrays of that projection. -/
theorem crash_projection_fresh (order : List CoefFile) (ho : order = spodOrder ∨ order = podOrder) (lenient : Bool) (new : CoefFile → α) (n : Nat) :
    reconInputs lenient (interrupted (fun _ => .absent) (coefFiles order new) n) =
      if 8 ≤ n then some (arrays new) else if n = 7 ∧ lenient = true then some (arrays new) else none := by
  rcases ho with rfl | rfl
  all_goals
    have hn : ((coefFiles spodOrder new).map (·.1)).Nodup := by simp [coefFiles, spodOrder]
    have hn' : ((coefFiles podOrder new).map (·.1)).Nodup := by simp [coefFiles, podOrder]
    match n with
    | 0 => rfl
    | 1 => rfl
    | 2 => rfl
    | 3 => rfl
    | 4 => rfl
    | 5 => rfl
    | 6 => rfl
    | 7 => cases lenient <;> rfl
    | n + 8 =>
      rw [if_pos (by omega)]
      simp [interrupted, coefFiles, spodOrder, podOrder, kops, reconInputs, kstep, Objects.set, load, arrays]

/-- **C129, exactly.** A second projection into the same folder, interrupted after any number of steps: the reconstruction raises while a file is being
    written, and in between uses new modes with the old mean and the old coefficients (after one file) or new modes and new mean with the old
    coefficients (after two). -/
theorem crash_projection_exact (old new : CoefFile → α) (n : Nat) :
    reconInputs false (interrupted (fun f => .complete (old f)) (coefFiles spodOrder new) n) =
      match n with
      | 0 => some (arrays old)
      | 2 => some (new .modes, old .mean, old .coeffs)
      | 4 => some (new .modes, new .mean, old .coeffs)
      | 1 | 3 | 5 | 7 => none
      | _ => some (arrays new) := by
  match n with
  | 0 => rfl
  | 1 => rfl
  | 2 => rfl
  | 3 => rfl
  | 4 => rfl
  | 5 => rfl
  | 6 => rfl
  | 7 => rfl
  | n + 8 => simp [interrupted, coefFiles, spodOrder, kops, reconInputs, kstep, Objects.set, load, arrays]

/-- **C129, violated.** So a reconstruction may combine the modes of one projection with the coefficients of another. -/
theorem crash_projection_mixed_fails (old new : CoefFile → α) (h1 : new .modes ≠ old .modes) (h2 : new .coeffs ≠ old .coeffs) :
    ∃ n r, reconInputs false (interrupted (fun f => .complete (old f)) (coefFiles spodOrder new) n) = some r ∧ r ≠ arrays old ∧ r ≠ arrays new := by
  refine ⟨4, _, crash_projection_exact old new 4, ?_, ?_⟩
  · intro h; simp only [arrays, Prod.mk.injEq] at h; exact h1 h.1
  · intro h; simp only [arrays, Prod.mk.injEq] at h; exact h2 h.2.2.symm

/-- **C129, violated, POD.** There new coefficients come with old modes. -/
theorem crash_pod_projection_mixed_fails (old new : CoefFile → α) (h1 : new .modes ≠ old .modes) (h2 : new .coeffs ≠ old .coeffs) :
    ∃ n r, reconInputs false (interrupted (fun f => .complete (old f)) (coefFiles podOrder new) n) = some r ∧ r ≠ arrays old ∧ r ≠ arrays new := by
  refine ⟨2, (old .modes, old .mean, new .coeffs), rfl, ?_, ?_⟩
  · intro h; simp only [arrays, Prod.mk.injEq] at h; exact h2 h.2.2
  · intro h; simp only [arrays, Prod.mk.injEq] at h; exact h1 h.1.symm

/-- files of a fit -/
def fitFiles' (nFreq : Nat) (new : FitFile → α) : List (FitFile × α) := (fitOrder nFreq).map fun f => (f, new f)

theorem fitFiles_nodup (nFreq : Nat) (new : FitFile → α) : ((fitFiles' nFreq new).map (·.1)).Nodup := by
  simp only [fitFiles', List.map_map, Function.comp_def, List.map_id', fitOrder]
  rw [List.nodup_append]
  refine ⟨?_, by simp, ?_⟩
  · exact List.Nodup.map (fun a b h => by cases h; rfl) List.nodup_range
  · intro x hx y hy
    simp only [List.mem_map] at hx
    obtain ⟨f, _, rfl⟩ := hx
    simp only [List.mem_cons, List.not_mem_nil, or_false] at hy
    rcases hy with rfl | rfl | rfl | rfl <;> simp

theorem fitFiles_modes (nFreq : Nat) (new : FitFile → α) (f : Nat) (hf : f < nFreq) :
    (fitFiles' nFreq new)[f]? = some (.modes f, new (.modes f)) := by
  simp [fitFiles', fitOrder, List.getElem?_append_left, hf]

theorem fitFiles_tail (nFreq : Nat) (new : FitFile → α) (j : Nat) (x : FitFile) (h : [FitFile.weights, .mean, .params, .eigs][j]? = some x) :
    (fitFiles' nFreq new)[nFreq + j]? = some (x, new x) := by
  simp only [fitFiles', fitOrder, List.getElem?_map]
  rw [List.getElem?_append_right (by simp)]
  simp [h]

/-- what a complete fit leaves for the readers -/
def fitData' (nFreq : Nat) (v : FitFile → α) : α × α × List α := (v .eigs, v .weights, (List.range nFreq).map fun f => v (.modes f))

theorem mapM_load_some {β : Type} (l : List Nat) (g : Nat → FileState β) (v : Nat → β) (h : ∀ f ∈ l, g f = .complete (v f)) :
    (l.mapM fun f => load (g f)) = some (l.map v) := by
  induction l with
  | nil => rfl
  | cons a l ih =>
    rw [List.mapM_cons, ih fun f hf => h f (by simp [hf]), h a (by simp)]
    rfl

/-- Which folders can be read: eigenvalues, weights and the modes of all frequencies are complete, and the parameter file is there (complete, unless its reader is
    lenient). -/
theorem fit_inputs_exact (lenient : Bool) (nFreq : Nat) (s : FitFile → FileState α) :
    (fitInputs lenient nFreq s).isSome ↔ (∃ e, s .eigs = .complete e) ∧ (∃ w, s .weights = .complete w) ∧
      ((∃ q, s .params = .complete q) ∨ s .params = .incomplete ∧ lenient = true) ∧ ∀ f < nFreq, ∃ v, s (.modes f) = .complete v := by
  have hload : ∀ k, (load (s k)).isSome ↔ ∃ v, s k = .complete v := by
    intro k
    cases h : s k <;> simp [load]
  have hl : ∀ l : List Nat, (l.mapM fun f => load (s (.modes f))).isSome ↔ ∀ f ∈ l, ∃ v, s (.modes f) = .complete v := by
    intro l
    induction l with
    | nil => simp
    | cons a l ih =>
      rw [List.mapM_cons]
      have ha := hload (.modes a)
      cases h : load (s (.modes a)) with
      | none =>
        rw [h] at ha
        simp only [Option.bind_eq_bind, Option.bind_none, Option.isSome_none, Bool.false_eq_true, List.mem_cons, forall_eq_or_imp, false_iff] at ha ⊢
        exact fun hc => ha hc.1
      | some v =>
        rw [h] at ha
        simp only [Option.isSome_some, true_iff] at ha
        cases h' : (l.mapM fun f => load (s (.modes f))) with
        | none =>
          rw [h'] at ih
          simp only [Option.isSome_none, Bool.false_eq_true, false_iff] at ih
          simp only [Option.bind_eq_bind, Option.bind_some, Option.bind_none, Option.isSome_none, Bool.false_eq_true, List.mem_cons, forall_eq_or_imp, false_iff]
          exact fun hc => ih hc.2
        | some vs =>
          rw [h'] at ih
          simp only [Option.isSome_some, true_iff] at ih
          simp only [Option.bind_eq_bind, Option.bind_some, Option.pure_def, Option.isSome_some, List.mem_cons, forall_eq_or_imp, true_iff]
          exact ⟨ha, ih⟩
  have hm := hl (List.range nFreq)
  simp only [List.mem_range] at hm
  cases he : s .eigs with
  | complete e =>
    cases hw : s .weights with
    | complete w => cases hp : s .params <;> cases lenient <;> simp [fitInputs, load, he, hw, hp, ← hm]
    | incomplete => simp [fitInputs, load, he, hw]
    | absent => simp [fitInputs, load, he, hw]
  | incomplete => simp [fitInputs, load, he]
  | absent => simp [fitInputs, load, he]

/-- **C130, partly.** A fit into a new folder interrupted at any point: whatever reads the results raises until the fit is complete; then it reads this fit. -/
theorem crash_fit_fresh (lenient : Bool) (nFreq : Nat) (new : FitFile → α) (n : Nat) :
    fitInputs lenient nFreq (interrupted (fun _ => .absent) (fitFiles' nFreq new) n) =
      if 2 * (nFreq + 4) ≤ n then some (fitData' nFreq new) else none := by
  have he := interrupted_at (fun _ => .absent) (fitFiles' nFreq new) (fitFiles_nodup nFreq new) n (nFreq + 3) .eigs (new .eigs)
    (fitFiles_tail nFreq new 3 .eigs rfl)
  by_cases h : 2 * (nFreq + 4) ≤ n
  · rw [if_pos h]
    have hw := interrupted_at (fun _ => .absent) (fitFiles' nFreq new) (fitFiles_nodup nFreq new) n (nFreq + 0) .weights (new .weights)
      (fitFiles_tail nFreq new 0 .weights rfl)
    have hp := interrupted_at (fun _ => .absent) (fitFiles' nFreq new) (fitFiles_nodup nFreq new) n (nFreq + 2) .params (new .params)
      (fitFiles_tail nFreq new 2 .params rfl)
    rw [if_neg (by omega), if_neg (by omega)] at he hw hp
    have hm := mapM_load_some (List.range nFreq) (fun f => interrupted (fun _ => .absent) (fitFiles' nFreq new) n (.modes f)) (fun f => new (.modes f))
      (fun f hf => by
        rw [List.mem_range] at hf
        have := interrupted_at (fun _ => .absent) (fitFiles' nFreq new) (fitFiles_nodup nFreq new) n f _ _ (fitFiles_modes nFreq new f hf)
        rw [if_neg (by omega), if_neg (by omega)] at this
        exact this)
    simp only [fitInputs, he, hw, hp, load, if_true] at hm ⊢
    rw [hm]
    rfl
  · rw [if_neg h]
    have : load (interrupted (fun _ => .absent) (fitFiles' nFreq new) n .eigs) = none := by
      rw [he]
      split
      · rfl
      · rw [if_pos (by omega)]; rfl
    simp [fitInputs, this]

/-- **C130, partly.** Interrupted at any point, the modes of any frequency are the old ones, the new ones, or cannot be read. -/
theorem crash_fit_modes (s : FitFile → FileState α) (nFreq : Nat) (new : FitFile → α) (n f : Nat) :
    load (interrupted s (fitFiles' nFreq new) n (.modes f)) = load (s (.modes f)) ∨
    load (interrupted s (fitFiles' nFreq new) n (.modes f)) = none ∨
    (f < nFreq ∧ load (interrupted s (fitFiles' nFreq new) n (.modes f)) = some (new (.modes f))) := by
  by_cases hf : f < nFreq
  · have := interrupted_at s (fitFiles' nFreq new) (fitFiles_nodup nFreq new) n f _ _ (fitFiles_modes nFreq new f hf)
    rw [this]
    split
    · exact Or.inl rfl
    · split
      · exact Or.inr (Or.inl rfl)
      · exact Or.inr (Or.inr ⟨hf, rfl⟩)
  · left
    rw [interrupted_other]
    simp only [fitFiles', List.map_map, Function.comp_def, List.map_id', fitOrder, List.mem_append, List.mem_map, List.mem_range]
    rintro (⟨f', h1, h2⟩ | h)
    · cases h2; exact hf h1
    · simp at h

/-- **C130, exactly.** A second fit into the same folder (same frequencies) interrupted after the files of `j` frequencies: everything that reads the
    results gets the new modes of the first `j` frequencies, the old modes of the others, and the old eigenvalues and weights. -/
theorem crash_fit_mixed (nFreq j : Nat) (hj : j ≤ nFreq) (old new : FitFile → α) :
    fitInputs false nFreq (interrupted (fun f => .complete (old f)) (fitFiles' nFreq new) (2 * j)) =
      some (old .eigs, old .weights, (List.range nFreq).map fun f => if f < j then new (.modes f) else old (.modes f)) := by
  have hx : ∀ (i : Nat) (x : FitFile), [FitFile.weights, .mean, .params, .eigs][i]? = some x →
      interrupted (fun f => .complete (old f)) (fitFiles' nFreq new) (2 * j) x = .complete (old x) := by
    intro i x h
    rw [interrupted_at _ _ (fitFiles_nodup nFreq new) (2 * j) (nFreq + i) x (new x) (fitFiles_tail nFreq new i x h), if_pos (by omega)]
  have hm := mapM_load_some (List.range nFreq) (fun f => interrupted (fun f => .complete (old f)) (fitFiles' nFreq new) (2 * j) (.modes f))
      (fun f => if f < j then new (.modes f) else old (.modes f))
      (fun f hf => by
        rw [List.mem_range] at hf
        rw [interrupted_at _ _ (fitFiles_nodup nFreq new) (2 * j) f _ _ (fitFiles_modes nFreq new f hf)]
        by_cases h : f < j
        · rw [if_neg (by omega), if_neg (by omega), if_pos h]
        · rw [if_pos (by omega), if_neg h])
  simp only [fitInputs, hx 0 .weights rfl, hx 3 .eigs rfl, hx 2 .params rfl, load, if_true] at hm ⊢
  rw [hm]
  rfl

/-- **C130, violated.** So with two frequencies or more the results read may belong to no fit. -/
theorem crash_fit_mixed_fails (nFreq : Nat) (hf : 2 ≤ nFreq) (old new : FitFile → α) (h0 : new (.modes 0) ≠ old (.modes 0))
    (h1 : new (.modes 1) ≠ old (.modes 1)) :
    ∃ n r, fitInputs false nFreq (interrupted (fun f => .complete (old f)) (fitFiles' nFreq new) n) = some r ∧
      r ≠ fitData' nFreq old ∧ r ≠ fitData' nFreq new := by
  refine ⟨2 * 1, _, crash_fit_mixed nFreq 1 (by omega) old new, ?_, ?_⟩
  · intro h
    simp only [fitData', Prod.mk.injEq, true_and] at h
    have := congrArg (fun l => l[0]?) h
    simp [show 0 < nFreq by omega] at this
    exact h0 this
  · intro h
    simp only [fitData', Prod.mk.injEq] at h
    have := congrArg (fun l => l[1]?) h.2.2
    simp [show 1 < nFreq by omega] at this
    exact h1 this.symm

example : ∃ n r, fitInputs false 3 (interrupted (fun f => .complete ((fun _ => 1 : FitFile → Nat) f)) (fitFiles' 3 fun _ => 2) n) = some r ∧
      r ≠ fitData' 3 (fun _ => 1) ∧ r ≠ fitData' 3 (fun _ => 2) :=
  crash_fit_mixed_fails 3 (by decide) (fun _ => 1) (fun _ => 2) (by decide) (by decide)

end

/-! ### C131: the dictionary of parameters -/

/-- what an object made from a fresh copy of the dictionary does: the folder is the given one, below the directory of the import if relative, or the
    default of its class; the number of modes is the requested one (by default 10¹⁰), for the SPOD at most the number of blocks -/
def freshRun (cwd0 : Loc) (p : Params) (r : Cls × Nat) : Path × Nat :=
  (⟨true, match p.savedir with
    | some q => if q.abs then q.parts else cwd0 ++ q.parts
    | none => match r.1 with | .spod => cwd0 ++ ["spod_results"] | .pod => cwd0 ++ ["pod_results"]⟩,
   match r.1 with | .spod => min (p.nModes.getD 10000000000) r.2 | .pod => p.nModes.getD 10000000000)

theorem freshRun_eq (cwd0 : Loc) (p : Params) (r : Cls × Nat) : freshRun cwd0 p r =
    (objSavedir cwd0 r.1 p, match r.1 with | .spod => Hist.fitModes (objModes p) r.2 | .pod => objModes p) := by
  have hfm : ∀ a b, Hist.fitModes a b = min a b := by intro a b; unfold Hist.fitModes; split <;> omega
  unfold freshRun objSavedir objModes fromImport join
  refine Prod.ext ?_ ?_
  · cases hs : p.savedir with
    | none => cases r.1 <;> rfl
    | some q =>
      obtain ⟨ab, parts⟩ := q
      cases ab <;> simp
  · cases r.1 <;> simp [hfm]

/-- numbers of blocks of the SPOD fits in a list of runs -/
def spodBlocks (rs : List (Cls × Nat)) : List Nat := rs.filterMap fun r => if r.1 = .spod then some r.2 else none

theorem fromImport_idem (cwd0 : Loc) (p : Path) : fromImport cwd0 (fromImport cwd0 p) = fromImport cwd0 p := by
  cases h : p.abs <;> simp [fromImport, join, h]

theorem runs_state (cwd0 : Loc) (p : Params) (rs : List (Cls × Nat)) (r : Cls × Nat) :
    (runs cwd0 p (rs ++ [r])).getLast? = some
      ((match rs with | [] => objSavedir cwd0 r.1 p | r0 :: _ => objSavedir cwd0 r0.1 p),
       match r.1 with
       | .spod => min ((spodBlocks rs).foldl min (objModes p)) r.2
       | .pod => (spodBlocks rs).foldl min (objModes p)) := by
  have hfm : ∀ a b, Hist.fitModes a b = min a b := by intro a b; unfold Hist.fitModes; split <;> omega
  suffices H : ∀ (rs : List (Cls × Nat)) (p : Params),
      (runs cwd0 p (rs ++ [r])).getLast? = some
        ((match rs with | [] => objSavedir cwd0 r.1 p | r0 :: _ => objSavedir cwd0 r0.1 p),
         match r.1 with
         | .spod => min ((spodBlocks rs).foldl min (objModes p)) r.2
         | .pod => (spodBlocks rs).foldl min (objModes p)) from H rs p
  intro rs
  induction rs with
  | nil =>
    intro p
    obtain ⟨cls, nb⟩ := r
    cases cls <;> simp [runs, spodBlocks, hfm]
  | cons r0 rs ih =>
    intro p
    obtain ⟨cls0, nb0⟩ := r0
    have hs : ∀ cls, objSavedir cwd0 cls (afterFit cwd0 cls0 nb0 p) = objSavedir cwd0 cls0 p := by
      intro cls
      cases cls0 <;> simp [objSavedir, afterFit, afterInit, fromImport_idem]
    have hne : runs cwd0 (afterFit cwd0 cls0 nb0 p) (rs ++ [r]) ≠ [] := by
      cases rs <;> simp [runs]
    rw [List.cons_append, show runs cwd0 p ((cls0, nb0) :: (rs ++ [r])) = _ :: runs cwd0 (afterFit cwd0 cls0 nb0 p) (rs ++ [r]) from rfl,
      List.getLast?_cons]
    rw [ih]
    simp only [Option.getD_some, Option.some.injEq, Prod.mk.injEq]
    constructor
    · cases rs with
      | nil => exact hs _
      | cons r1 rs => exact hs _
    · cases cls0 with
      | spod => simp [spodBlocks, afterFit, objModes, hfm]
      | pod => simp [spodBlocks, afterFit, afterInit, objModes]

/-- **C131, exactly.** Objects made one after the other from one dictionary: the last one stores its results in the folder of the first, and its number of
    modes is limited by the number of blocks of every SPOD fit before. -/
theorem params_exact (cwd0 : Loc) (p : Params) (rs : List (Cls × Nat)) (r : Cls × Nat) :
    (runs cwd0 p (rs ++ [r])).getLast? = some (freshRun cwd0 p r) ↔
      (∀ r0, rs.head? = some r0 → objSavedir cwd0 r0.1 p = objSavedir cwd0 r.1 p) ∧
      (match r.1 with
       | .spod => ∀ b ∈ spodBlocks rs, min (objModes p) r.2 ≤ b
       | .pod => ∀ b ∈ spodBlocks rs, objModes p ≤ b) := by
  have hfm : ∀ a b, Hist.fitModes a b = min a b := by intro a b; unfold Hist.fitModes; split <;> omega
  have hfold : ∀ (l : List Nat) (a c : Nat), c ≤ l.foldl min a ↔ c ≤ a ∧ ∀ b ∈ l, c ≤ b := by
    intro l
    induction l with
    | nil => simp
    | cons x l ih =>
      intro a c
      rw [List.foldl_cons, ih]
      simp only [List.mem_cons, forall_eq_or_imp]
      constructor
      · rintro ⟨h1, h2⟩; exact ⟨by omega, by omega, h2⟩
      · rintro ⟨h1, h2, h3⟩; exact ⟨by omega, h3⟩
  have hle : ∀ (l : List Nat) (a : Nat), l.foldl min a ≤ a := fun l a => ((hfold l a _).1 (Nat.le_refl _)).1
  rw [runs_state]
  simp only [freshRun_eq, Option.some.injEq, Prod.mk.injEq, hfm]
  refine and_congr ?_ ?_
  · cases rs with
    | nil => simp
    | cons r0 rs => simp
  · cases r.1 with
    | spod =>
      simp only
      have h1 := hfold (spodBlocks rs) (objModes p) (min (objModes p) r.2)
      have h2 := hle (spodBlocks rs) (objModes p)
      constructor
      · intro h b hb
        exact (h1.1 (by omega)).2 b hb
      · intro h
        have := h1.2 ⟨by omega, h⟩
        omega
    | pod =>
      simp only
      have h1 := hfold (spodBlocks rs) (objModes p) (objModes p)
      have h2 := hle (spodBlocks rs) (objModes p)
      constructor
      · intro h b hb
        exact (h1.1 (by omega)).2 b hb
      · intro h
        have := h1.2 ⟨by omega, h⟩
        omega

/-- **C131, violated.** Two SPOD objects from one dictionary, the first fitted to shorter data: the second saves too few modes. -/
theorem params_modes_fails (cwd0 : Loc) (p : Params) (nb nb' : Nat) (h : nb < nb') (hp : nb < objModes p) :
    (runs cwd0 p [(.spod, nb), (.spod, nb')]).getLast? ≠ some (freshRun cwd0 p (.spod, nb')) := by
  intro h'
  have := ((params_exact cwd0 p [(.spod, nb)] (.spod, nb')).1 h').2 nb (by simp [spodBlocks])
  simp at this
  omega

/-- **C131, violated.** An SPOD and a POD object from one dictionary without `savedir`: the POD is stored in the folder of the SPOD. -/
theorem params_savedir_fails (cwd0 : Loc) (p : Params) (hp : p.savedir = none) (nb nb' : Nat) :
    (runs cwd0 p [(.spod, nb), (.pod, nb')]).getLast? ≠ some (freshRun cwd0 p (.pod, nb')) := by
  intro h'
  have := ((params_exact cwd0 p [(.spod, nb)] (.pod, nb')).1 h').1 _ rfl
  simp [objSavedir, hp, fromImport, join] at this

/-- **C131, partly.** Objects of one class, or a given `savedir`, and no more modes requested than blocks: every object behaves as if made from a fresh
    dictionary. -/
theorem params_partial (cwd0 : Loc) (p : Params) (rs : List (Cls × Nat)) (r : Cls × Nat)
    (hs : p.savedir.isSome ∨ ∀ r0 ∈ rs, r0.1 = r.1) (hb : ∀ r0 ∈ rs, objModes p ≤ r0.2) :
    (runs cwd0 p (rs ++ [r])).getLast? = some (freshRun cwd0 p r) := by
  rw [params_exact]
  have hb' : ∀ b ∈ spodBlocks rs, objModes p ≤ b := by
    intro b h
    simp only [spodBlocks, List.mem_filterMap] at h
    obtain ⟨r0, h1, h2⟩ := h
    split at h2
    · cases h2; exact hb r0 h1
    · cases h2
  refine ⟨fun r0 h0 => ?_, ?_⟩
  · rcases hs with h | h
    · obtain ⟨q, hq⟩ := Option.isSome_iff_exists.1 h
      simp [objSavedir, hq]
    · rw [h r0 (List.mem_of_head? h0)]
  · cases r.1 with
    | spod => exact fun b h => le_trans (Nat.min_le_left _ _) (hb' b h)
    | pod => exact hb'

example : runs ["home"] ⟨none, some 3⟩ [(.spod, 5), (.spod, 4)] =
    [(⟨true, ["home", "spod_results"]⟩, 3), (⟨true, ["home", "spod_results"]⟩, 3)] := by decide +kernel

end Verif.Props
