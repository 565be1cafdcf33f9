import Verif.Model.Figures
import Mathlib.Tactic.Ring
import Mathlib.Tactic.Linarith
import Mathlib.Tactic.NormNum
import Mathlib.Tactic.FieldSimp
import Mathlib.Tactic.Positivity
import Mathlib.Analysis.Complex.Norm

/-!
# What saved figures show, and what happens to the other figures of a program (C132-C137)
-/
namespace Verif.Props
open Verif.Model.Fig

variable {β : Type}

/-! ## Specification -/

/-- what each file of a call should show, page by page: the drawings of that file, nothing else -/
def shouldShow : Call β → List (String × List (List β))
  | .pages _ ps => ps.filterMap fun p => p.1.map fun n => (n, [p.2])
  | .coeffs _ cs => cs.filterMap fun p => p.1.map fun n => (n, [[p.2]])
  | .report n ps => [(n, ps)]
  | .video vs => vs.map fun v => (v.1, [v.2])
  | .own _ _ => []

/-- what the pages of a file show -/
def shows (f : String × List (Figure β)) : String × List (List β) := (f.1, f.2.map Figure.drawn)

/-- the call makes its own figure for every file, and saves to files -/
def Call.Saves : Call β → Prop
  | .pages _ ps => ∀ p ∈ ps, p.1.isSome
  | .coeffs _ cs => ∀ p ∈ cs, p.1.isSome
  | .report _ _ => True
  | .video _ => True
  | .own _ _ => False

/-! ## Lemmas about the figure stack -/

theorem drawAll_cons (bs : List β) (f : Figure β) (fs : List (Figure β)) (files : List (String × List (Figure β))) :
    drawAll bs ⟨f :: fs, files⟩ = ⟨⟨f.size, f.drawn ++ bs⟩ :: fs, files⟩ := by
  unfold drawAll
  induction bs generalizing f with
  | nil => simp
  | cons b bs ih =>
    rw [List.foldl_cons]
    have : draw b (⟨f :: fs, files⟩ : Plt β) = ⟨⟨f.size, f.drawn ++ [b]⟩ :: fs, files⟩ := rfl
    rw [this, ih]
    simp

theorem save_page (w : Bool) (size : ℚ × ℚ) (n : String) (bs : List β) (s : Plt β) :
    saveShow w (some n) (drawAll bs (newFigure size s)) = ⟨s.figs, s.files ++ [(n, [⟨size, bs⟩])]⟩ := by
  show saveShow w (some n) (drawAll bs ⟨⟨size, []⟩ :: s.figs, s.files⟩) = _
  rw [drawAll_cons]
  rfl

/-- one file of `plot_coeffs` when a figure is open: it is drawn on, saved and closed -/
theorem save_coeff (w : Bool) (n : String) (c : β) (f : Figure β) (fs : List (Figure β)) (files : List (String × List (Figure β))) :
    saveShow w (some n) (draw c ⟨f :: fs, files⟩) = ⟨fs, files ++ [(n, [⟨f.size, f.drawn ++ [c]⟩])]⟩ := rfl

/-- one file of `plot_coeffs` when no figure is open -/
theorem save_coeff_nil (w : Bool) (n : String) (c : β) (files : List (String × List (Figure β))) :
    saveShow w (some n) (draw c ⟨[], files⟩) = ⟨[], files ++ [(n, [⟨defaultSize, [c]⟩])]⟩ := rfl

/-! ### C132: files -/

/-- **C132 for the functions with one figure per file**: whatever was plotted before, each file shows exactly the drawings of its page at the requested
    size. -/
theorem pages_files (w : Bool) (size : ℚ × ℚ) (ps : List (Option String × List β)) (hp : ∀ p ∈ ps, p.1.isSome) (s : Plt β) :
    step w s (.pages size ps) = ⟨s.figs, s.files ++ ps.filterMap fun p => p.1.map fun n => (n, [⟨size, p.2⟩])⟩ := by
  show onePerFile w size ps s = _
  unfold onePerFile
  induction ps generalizing s with
  | nil => simp
  | cons p ps ih =>
    obtain ⟨n, hn⟩ := Option.isSome_iff_exists.1 (hp p (by simp))
    rw [List.foldl_cons, hn, save_page, ih fun q hq => hp q (by simp [hq])]
    simp [hn]

theorem report_fold (ps : List (List β)) (s : Plt β) (acc : List (Figure β)) :
    ps.foldl (pdfPage (12, 8)) (s, acc) =
      (⟨(ps.map fun d => (⟨(12, 8), d⟩ : Figure β)).reverse ++ s.figs, s.files⟩, acc ++ ps.map fun d => ⟨(12, 8), d⟩) := by
  induction ps generalizing s acc with
  | nil => simp
  | cons d ps ih =>
    rw [List.foldl_cons]
    have : pdfPage (12, 8) (s, acc) d = (⟨⟨(12, 8), d⟩ :: s.figs, s.files⟩, acc ++ [⟨(12, 8), d⟩]) := by
      unfold pdfPage
      show (match (drawAll d ⟨⟨(12, 8), []⟩ :: s.figs, s.files⟩).figs with
        | [] => (s, acc)
        | f :: fs => (⟨f :: fs, s.files⟩, acc ++ [f])) = _
      rw [drawAll_cons]
      simp
    rw [this, ih]
    simp

/-- **C132 for the report**: its pages are the requested ones in order.  They all stay open. -/
theorem report_files (w : Bool) (n : String) (ps : List (List β)) (s : Plt β) :
    step w s (.report n ps) = ⟨(ps.map fun d => (⟨(12, 8), d⟩ : Figure β)).reverse ++ s.figs,
      s.files ++ [(n, ps.map fun d => ⟨(12, 8), d⟩)]⟩ := by
  show plotReport n ps s = _
  unfold plotReport
  simp [report_fold]

/-- **C132 for videos**: each file has all the frames of its variable.  All figures of the program are closed. -/
theorem video_files (w : Bool) (vs : List (String × List β)) (s : Plt β) :
    step w s (.video vs) = ⟨if vs = [] then s.figs else [], s.files ++ vs.map fun v => (v.1, [⟨defaultSize, v.2⟩])⟩ := by
  show dataVideo vs s = _
  unfold dataVideo
  induction vs generalizing s with
  | nil => simp
  | cons v vs ih =>
    rw [List.foldl_cons]
    have : closeAll (savefig v.1 (drawAll v.2 (newFigure defaultSize s))) = ⟨[], s.files ++ [(v.1, [⟨defaultSize, v.2⟩])]⟩ := by
      show closeAll (savefig v.1 (drawAll v.2 ⟨⟨defaultSize, []⟩ :: s.figs, s.files⟩)) = _
      rw [drawAll_cons]
      rfl
    rw [this, ih]
    simp

/-- the file and the curve of each coefficient, `under` the figures it is drawn on in turn (a new one when they are used up) -/
def overlay : List (String × β) → List (Figure β) → List (String × List (Figure β))
  | [], _ => []
  | (n, c) :: cs, [] => (n, [⟨(64 / 10, 48 / 10), [c]⟩]) :: overlay cs []
  | (n, c) :: cs, f :: fs => (n, [⟨f.size, f.drawn ++ [c]⟩]) :: overlay cs fs

theorem coeffs_fold (w : Bool) (cs : List (String × β)) (s : Plt β) :
    (cs.map fun c => (some c.1, c.2)).foldl (fun s (p : Option String × β) => saveShow w p.1 (draw p.2 s)) s =
      ⟨s.figs.drop cs.length, s.files ++ overlay cs s.figs⟩ := by
  induction cs generalizing s with
  | nil => simp [overlay]
  | cons c cs ih =>
    obtain ⟨n, c⟩ := c
    obtain ⟨figs, files⟩ := s
    rw [List.map_cons, List.foldl_cons]
    cases figs with
    | nil =>
      rw [show saveShow w (some (n, c).1) (draw (n, c).2 (⟨[], files⟩ : Plt β)) = _ from save_coeff_nil w n c files, ih]
      simp [overlay, defaultSize]
    | cons f fs =>
      rw [show saveShow w (some (n, c).1) (draw (n, c).2 (⟨f :: fs, files⟩ : Plt β)) = _ from save_coeff w n c f fs files, ih]
      simp [overlay]

/-- **C132 and C133 for `plot_coeffs`, exactly.** The first coefficient is drawn on the new figure, every further one on a figure that was open before
    the call, which is then saved under the coefficient's name and closed. -/
theorem coeffs_files (w : Bool) (size : ℚ × ℚ) (cs : List (String × β)) (s : Plt β) :
    step w s (.coeffs size (cs.map fun c => (some c.1, c.2))) =
      ⟨(⟨size, []⟩ :: s.figs).drop cs.length, s.files ++ overlay cs (⟨size, []⟩ :: s.figs)⟩ := by
  show plotCoeffs w size _ s = _
  unfold plotCoeffs
  rw [coeffs_fold]
  rfl

theorem overlay_right_iff (cs : List (String × β)) (figs : List (Figure β)) :
    (overlay cs figs).map shows = cs.map (fun c => (c.1, [[c.2]])) ↔ ∀ f ∈ figs.take cs.length, f.drawn = [] := by
  induction cs generalizing figs with
  | nil => simp [overlay]
  | cons c cs ih =>
    obtain ⟨n, c⟩ := c
    cases figs with
    | nil =>
      simp only [overlay, List.map_cons, shows]
      have := ih []
      simp only [List.take_nil, List.not_mem_nil, false_imp_iff, implies_true, iff_true] at this
      simp [this]
    | cons f fs =>
      have h2 : f.drawn ++ [c] = [c] ↔ f.drawn = [] := by
        constructor
        · intro h
          have := congrArg List.length h
          simpa using this
        · intro h; simp [h]
      simp only [overlay, List.map_cons, List.cons.injEq, ih fs, List.length_cons, List.take_succ_cons, List.forall_mem_cons]
      simp [shows, h2]

/-- **C132 for `plot_coeffs`, exactly when.** The files show what they should exactly when nothing is drawn on the last `n - 1` open figures of the
    program, `n` the number of coefficients. -/
theorem coeffs_files_exact (w : Bool) (size : ℚ × ℚ) (cs : List (String × β)) (s : Plt β) :
    ((step w s (.coeffs size (cs.map fun c => (some c.1, c.2)))).files.map shows =
        s.files.map shows ++ shouldShow (.coeffs size (cs.map fun c => (some c.1, c.2)))) ↔
      ∀ f ∈ s.figs.take (cs.length - 1), f.drawn = [] := by
  rw [coeffs_files, List.map_append, List.append_cancel_left_eq]
  have h1 : shouldShow (.coeffs size (cs.map fun c => (some c.1, c.2))) = cs.map fun c => (c.1, [[c.2]]) := by
    simp [shouldShow, List.filterMap_map]
  rw [h1, overlay_right_iff]
  cases cs with
  | nil => simp
  | cons c cs => simp

/-- **C132, violated.** A program with an open figure on which something is drawn saves two coefficients: the second file shows the program's own
    figure under the curve, and that figure is closed. -/
theorem coeffs_open_figure_fails (w : Bool) (size : ℚ × ℚ) (n₁ n₂ : String) (c₁ c₂ : β) (f : Figure β) (hf : f.drawn ≠ [])
    (fs : List (Figure β)) (files : List (String × List (Figure β))) :
    let s := step w ⟨f :: fs, files⟩ (.coeffs size [(some n₁, c₁), (some n₂, c₂)])
    s.files.getLast? = some (n₂, [⟨f.size, f.drawn ++ [c₂]⟩]) ∧ s.figs = fs ∧
      s.files.map shows ≠ files.map shows ++ shouldShow (.coeffs size [(some n₁, c₁), (some n₂, c₂)]) := by
  refine ⟨?_, ?_, ?_⟩
  · have := coeffs_files w size [(n₁, c₁), (n₂, c₂)] ⟨f :: fs, files⟩
    simp only [List.map_cons, List.map_nil] at this
    rw [this]
    simp [overlay]
  · have := coeffs_files w size [(n₁, c₁), (n₂, c₂)] ⟨f :: fs, files⟩
    simp only [List.map_cons, List.map_nil] at this
    rw [this]
    simp
  · intro h
    have := (coeffs_files_exact w size [(n₁, c₁), (n₂, c₂)] ⟨f :: fs, files⟩).1 h f (by simp)
    exact hf this

/-- **C132, violated within the library.** After a report with at least one drawing on its last page, saving two coefficients saves the last page of the
    report under the name of the second one. -/
theorem report_then_coeffs_fails (w : Bool) (size : ℚ × ℚ) (n n₁ n₂ : String) (c₁ c₂ : β) (ps : List (List β)) (last : List β)
    (s : Plt β) :
    (session w s [.report n (ps ++ [last]), .coeffs size [(some n₁, c₁), (some n₂, c₂)]]).files.getLast? =
      some (n₂, [⟨(12, 8), last ++ [c₂]⟩]) := by
  unfold session
  rw [List.foldl_cons, List.foldl_cons, List.foldl_nil, report_files]
  have := coeffs_files w size [(n₁, c₁), (n₂, c₂)]
  simp only [List.map_cons, List.map_nil] at this
  rw [this]
  simp [overlay]

/-- the calls after which nothing stays open when nothing was open: everything but the report, figures of the program, and `plot_coeffs` without
    coefficients -/
def Call.Tidy : Call β → Prop
  | .pages _ ps => ∀ p ∈ ps, p.1.isSome
  | .coeffs _ cs => cs ≠ [] ∧ ∀ p ∈ cs, p.1.isSome
  | .report _ _ => False
  | .video _ => True
  | .own _ _ => False

theorem named (cs : List (Option String × β)) (h : ∀ p ∈ cs, p.1.isSome) : ∃ ds : List (String × β), cs = ds.map fun c => (some c.1, c.2) := by
  induction cs with
  | nil => exact ⟨[], rfl⟩
  | cons c cs ih =>
    obtain ⟨ds, rfl⟩ := ih fun p hp => h p (by simp [hp])
    obtain ⟨n, hn⟩ := Option.isSome_iff_exists.1 (h c (by simp))
    exact ⟨(n, c.2) :: ds, by simp [← hn]⟩

/-- **C132, partly.** From no open figure, a session of tidy calls, at last followed by any saving call: every file shows exactly what it should, and the
    tidy calls leave no figure open. -/
theorem session_files_partial (w : Bool) (calls : List (Call β)) (ht : ∀ c ∈ calls, Call.Tidy c) (files : List (String × List (Figure β))) :
    (session w ⟨[], files⟩ calls).figs = [] ∧
      (session w ⟨[], files⟩ calls).files.map shows = files.map shows ++ calls.flatMap shouldShow ∧
      ∀ last, Call.Saves last →
        (session w ⟨[], files⟩ (calls ++ [last])).files.map shows = files.map shows ++ (calls ++ [last]).flatMap shouldShow := by
  have one : ∀ (c : Call β), Call.Saves c → ∀ files : List (String × List (Figure β)),
      (step w ⟨[], files⟩ c).files.map shows = files.map shows ++ shouldShow c := by
    intro c hc files
    cases c with
    | pages size ps =>
      rw [pages_files w size ps hc]
      simp only [List.map_append, List.append_cancel_left_eq, shouldShow]
      rw [List.map_filterMap]
      congr 1
      funext p
      cases p.1 <;> simp [shows]
    | coeffs size cs =>
      obtain ⟨ds, rfl⟩ := named cs hc
      exact (coeffs_files_exact w size ds ⟨[], files⟩).2 (by simp)
    | report n ps =>
      rw [report_files]
      simp [shows, shouldShow, Function.comp_def]
    | video vs =>
      rw [video_files]
      simp [shows, shouldShow, Function.comp_def]
    | own size bs => exact hc.elim
  have tidy : ∀ (c : Call β), Call.Tidy c → Call.Saves c ∧ ∀ files : List (String × List (Figure β)), (step w ⟨[], files⟩ c).figs = [] := by
    intro c hc
    cases c with
    | pages size ps => exact ⟨hc, fun files => by rw [pages_files w size ps hc]⟩
    | coeffs size cs =>
      obtain ⟨ds, rfl⟩ := named cs hc.2
      refine ⟨hc.2, fun files => ?_⟩
      rw [coeffs_files]
      cases ds with
      | nil => exact absurd rfl hc.1
      | cons d ds => simp
    | report n ps => exact hc.elim
    | video vs => exact ⟨trivial, fun files => by rw [video_files]; simp⟩
    | own size bs => exact hc.elim
  have main : (session w ⟨[], files⟩ calls).figs = [] ∧
      (session w ⟨[], files⟩ calls).files.map shows = files.map shows ++ calls.flatMap shouldShow := by
    induction calls generalizing files with
    | nil => simp [session]
    | cons c calls ih =>
      obtain ⟨h1, h2⟩ := tidy c (ht c (by simp))
      have h3 : step w ⟨[], files⟩ c = ⟨[], (step w ⟨[], files⟩ c).files⟩ := by
        conv_lhs => rw [show step w ⟨[], files⟩ c = ⟨(step w ⟨[], files⟩ c).figs, (step w ⟨[], files⟩ c).files⟩ from rfl, h2]
      obtain ⟨h4, h5⟩ := ih (fun c' hc' => ht c' (by simp [hc'])) (step w ⟨[], files⟩ c).files
      have h6 : session w ⟨[], files⟩ (c :: calls) = session w ⟨[], (step w ⟨[], files⟩ c).files⟩ calls := by
        unfold session
        rw [List.foldl_cons, ← h3]
      rw [h6]
      refine ⟨h4, ?_⟩
      rw [h5, one c h1]
      simp
  refine ⟨main.1, main.2, fun last hl => ?_⟩
  have h7 : session w ⟨[], files⟩ (calls ++ [last]) = step w ⟨[], (session w ⟨[], files⟩ calls).files⟩ last := by
    unfold session
    rw [List.foldl_append, List.foldl_cons, List.foldl_nil]
    congr 1
    rw [show calls.foldl (step w) ⟨[], files⟩ = session w ⟨[], files⟩ calls from rfl]
    conv_lhs => rw [show session w ⟨[], files⟩ calls = ⟨(session w ⟨[], files⟩ calls).figs, (session w ⟨[], files⟩ calls).files⟩ from rfl, main.1]
  rw [h7, one last hl, main.2]
  simp

/-- a session: eigenvalues, three coefficients, a video, then a report -/
example : (session false (⟨[], []⟩ : Plt Nat)
    ([.pages (12, 8) [(some "e.png", [1, 2])], .coeffs (12, 8) [(some "c0", 3), (some "c1", 4), (some "c2", 5)], .video [("v.mp4", [6, 7])]] ++
      [.report "r.pdf" [[8], [9]]])).files.map shows =
    [("e.png", [[1, 2]]), ("c0", [[3]]), ("c1", [[4]]), ("c2", [[5]]), ("v.mp4", [[6, 7]]), ("r.pdf", [[8], [9]])] :=
  ((session_files_partial false [.pages (12, 8) [(some "e.png", [1, 2])], .coeffs (12, 8) [(some "c0", 3), (some "c1", 4), (some "c2", 5)],
      .video [("v.mp4", [6, 7])]] (by
    intro c hc
    rcases List.mem_cons.1 hc with rfl | hc
    · simp [Call.Tidy]
    rcases List.mem_cons.1 hc with rfl | hc
    · exact ⟨by simp, by decide⟩
    · rcases List.mem_cons.1 hc with rfl | hc
      · trivial
      · simp at hc) []).2.2 (.report "r.pdf" [[8], [9]]) trivial).trans rfl

/-! ### C133: the program's own figures -/

/-- **C133, exactly.** What a saving call leaves open: `plot_coeffs` closes the last `n - 1` figures of the program (or leaves an empty one if there are
    no coefficients), the report leaves all its pages open, a video closes everything, all other functions change nothing. -/
theorem open_figures_exact (w : Bool) (s : Plt β) (c : Call β) (hc : Call.Saves c) :
    (step w s c).figs = s.figs ↔
      match c with
      | .pages _ _ => True
      | .coeffs _ cs => cs.length = 1 ∨ (s.figs = [] ∧ cs ≠ [])
      | .report _ ps => ps = []
      | .video vs => vs = [] ∨ s.figs = []
      | .own _ _ => False := by
  cases c with
  | pages size ps => simp [pages_files w size ps hc]
  | coeffs size cs =>
    obtain ⟨ds, rfl⟩ := named cs hc
    rw [coeffs_files]
    constructor
    · intro h
      have hl := congrArg List.length h
      simp only [List.length_drop, List.length_cons] at hl
      simp only [List.length_map, ne_eq, List.map_eq_nil_iff]
      cases hs : s.figs with
      | nil =>
        right
        refine ⟨rfl, ?_⟩
        rintro rfl
        simp [hs] at hl
      | cons f fs =>
        left
        rw [hs] at hl
        simp only [List.length_cons] at hl
        omega
    · intro h
      simp only [List.length_map, ne_eq, List.map_eq_nil_iff] at h
      show List.drop ds.length (⟨size, []⟩ :: s.figs) = s.figs
      rcases h with h | ⟨h1, h2⟩
      · rw [h]; rfl
      · cases ds with
        | nil => exact absurd rfl h2
        | cons d ds => simp [h1]
  | report n ps =>
    rw [report_files]
    simp
  | video vs =>
    rw [video_files]
    by_cases h : vs = []
    · simp [h]
    · simp only [h, if_false, false_or]
      exact eq_comm
  | own size bs => exact hc.elim

/-- **C133, violated.** Two coefficients: a figure of the program is gone. -/
theorem own_figure_lost_fails (w : Bool) (size : ℚ × ℚ) (n₁ n₂ : String) (c₁ c₂ : β) (f : Figure β) (fs : List (Figure β))
    (files : List (String × List (Figure β))) :
    (step w ⟨f :: fs, files⟩ (.coeffs size [(some n₁, c₁), (some n₂, c₂)])).figs ≠ f :: fs := by
  intro h
  have := (open_figures_exact w ⟨f :: fs, files⟩ (.coeffs size [(some n₁, c₁), (some n₂, c₂)]) (by simp [Call.Saves])).1 h
  simp at this

/-- **C133, violated.** A report of `n` pages leaves `n` more figures open, on every call. -/
theorem report_leaks_fails (w : Bool) (s : Plt β) (reports : List (String × List (List β))) :
    (session w s (reports.map fun r => .report r.1 r.2)).figs.length = s.figs.length + (reports.map fun r => r.2.length).sum := by
  unfold session
  induction reports generalizing s with
  | nil => simp
  | cons r rs ih =>
    rw [List.map_cons, List.foldl_cons, ih, report_files]
    simp
    omega

/-! ### C134: the size of a figure -/

/-- **C134, violated.** `plot_coeffs` with no open figure: the first file has the requested size, every further one matplotlib's default. -/
theorem coeffs_size_fails (w : Bool) (size : ℚ × ℚ) (c : String × β) (cs : List (String × β)) (files : List (String × List (Figure β))) :
    (step w ⟨[], files⟩ (.coeffs size ((c :: cs).map fun c => (some c.1, c.2)))).files =
      files ++ (c.1, [⟨size, [c.2]⟩]) :: cs.map fun c => (c.1, [⟨(64 / 10, 48 / 10), [c.2]⟩]) := by
  rw [coeffs_files]
  simp only [List.append_cancel_left_eq]
  show (c.1, [(⟨size, [] ++ [c.2]⟩ : Figure β)]) :: overlay cs [] = _
  simp only [List.nil_append, List.cons.injEq, true_and]
  induction cs with
  | nil => rfl
  | cons d ds ih => simp only [overlay, List.map_cons, ih]

/-- **C134, partly.** The functions with one figure per file use the requested size for every file; `plot_coeffs` does for one coefficient. -/
theorem size_partial (w : Bool) (size : ℚ × ℚ) (s : Plt β) :
    (∀ ps : List (Option String × List β), (∀ p ∈ ps, p.1.isSome) →
      ∀ f ∈ (step w s (.pages size ps)).files, f ∈ s.files ∨ ∀ g ∈ f.2, g.size = size) ∧
    ∀ (n : String) (c : β), (step w s (.coeffs size [(some n, c)])).files = s.files ++ [(n, [⟨size, [c]⟩])] := by
  refine ⟨fun ps hp f hf => ?_, fun n c => ?_⟩
  · rw [pages_files w size ps hp] at hf
    rcases List.mem_append.1 hf with h | h
    · exact Or.inl h
    · right
      obtain ⟨p, _, h2⟩ := List.mem_filterMap.1 h
      obtain ⟨n, _, rfl⟩ := Option.map_eq_some_iff.1 h2
      simp
  · have := coeffs_files w size [(n, c)] s
    simp only [List.map_cons, List.map_nil] at this
    rw [this]
    rfl

/-! ### C135: eigenvalues in the plane -/

theorem maxOf_spec (l : List ℝ) (h : l ≠ []) : ∃ a, maxOf l = some a ∧ a ∈ l ∧ ∀ x ∈ l, x ≤ a := by
  have key : ∀ (l : List ℝ) (a : ℝ), (l.foldl max a = a ∨ l.foldl max a ∈ l) ∧ a ≤ l.foldl max a ∧ ∀ x ∈ l, x ≤ l.foldl max a := by
    intro l
    induction l with
    | nil => intro a; simp
    | cons y l ih =>
      intro a
      obtain ⟨h1, h2, h3⟩ := ih (max a y)
      rw [List.foldl_cons]
      refine ⟨?_, (le_max_left _ _).trans h2, ?_⟩
      · rcases h1 with h1 | h1
        · rcases max_choice a y with h | h
          · left; rw [h1, h]
          · right; rw [h1, h]; simp
        · right; simp [h1]
      · intro x hx
        rcases List.mem_cons.1 hx with rfl | hx
        · exact (le_max_right _ _).trans h2
        · exact h3 x hx
  cases l with
  | nil => exact absurd rfl h
  | cons a l =>
    obtain ⟨h1, h2, h3⟩ := key l a
    refine ⟨_, rfl, ?_, ?_⟩
    · rcases h1 with h1 | h1
      · rw [h1]; simp
      · exact List.mem_cons_of_mem _ h1
    · intro x hx
      rcases List.mem_cons.1 hx with rfl | hx
      · exact h2
      · exact h3 x hx

theorem minOf_spec (l : List ℝ) (h : l ≠ []) : ∃ a, minOf l = some a ∧ a ∈ l ∧ ∀ x ∈ l, a ≤ x := by
  have key : ∀ (l : List ℝ) (a : ℝ), (l.foldl min a = a ∨ l.foldl min a ∈ l) ∧ l.foldl min a ≤ a ∧ ∀ x ∈ l, l.foldl min a ≤ x := by
    intro l
    induction l with
    | nil => intro a; simp
    | cons y l ih =>
      intro a
      obtain ⟨h1, h2, h3⟩ := ih (min a y)
      rw [List.foldl_cons]
      refine ⟨?_, h2.trans (min_le_left _ _), ?_⟩
      · rcases h1 with h1 | h1
        · rcases min_choice a y with h | h
          · left; rw [h1, h]
          · right; rw [h1, h]; simp
        · right; simp [h1]
      · intro x hx
        rcases List.mem_cons.1 hx with rfl | hx
        · exact h2.trans (min_le_right _ _)
        · exact h3 x hx
  cases l with
  | nil => exact absurd rfl h
  | cons a l =>
    obtain ⟨h1, h2, h3⟩ := key l a
    refine ⟨_, rfl, ?_, ?_⟩
    · rcases h1 with h1 | h1
      · rw [h1]; simp
      · exact List.mem_cons_of_mem _ h1
    · intro x hx
      rcases List.mem_cons.1 hx with rfl | hx
      · exact h2
      · exact h3 x hx

/-- **C135.** `plot_eigs` of a non-empty array: every eigenvalue lies inside both axes, strictly unless it is zero. -/
theorem eigs_inside (eigs : List ℂ) (h : eigs ≠ []) :
    ∃ limit, eigsLimit (eigs.map (‖·‖)) = some limit ∧ ∀ e ∈ eigs, |e.re| ≤ limit ∧ |e.im| ≤ limit ∧
      (e ≠ 0 → |e.re| < limit ∧ |e.im| < limit) := by
  obtain ⟨a, ha, ha1, ha2⟩ := maxOf_spec ((eigs.map (‖·‖)).map fun r => (⌈r⌉ : ℝ)) (by simpa using h)
  refine ⟨a * 1.2, by rw [eigsLimit, ha]; rfl, ?_⟩
  have key : ∀ e ∈ eigs, ‖e‖ ≤ a * 1.2 ∧ (e ≠ 0 → ‖e‖ < a * 1.2) := by
    intro e he
    have h0 : 0 ≤ ‖e‖ := norm_nonneg e
    have h1 : (⌈‖e‖⌉ : ℝ) ≤ a := ha2 _ (by
      simp only [List.mem_map, List.map_map]
      exact ⟨e, he, rfl⟩)
    have h2 : ‖e‖ ≤ a := (Int.le_ceil _).trans h1
    constructor
    · linarith
    · intro h3
      have : 0 < ‖e‖ := norm_pos_iff.2 h3
      linarith
  intro e he
  obtain ⟨h1, h2⟩ := key e he
  have h3 := Complex.abs_re_le_norm e
  have h4 := Complex.abs_im_le_norm e
  exact ⟨h3.trans h1, h4.trans h1, fun h5 => ⟨lt_of_le_of_lt h3 (h2 h5), lt_of_le_of_lt h4 (h2 h5)⟩⟩

example : ∃ limit, eigsLimit ([(3 : ℂ), Complex.I].map (‖·‖)) = some limit ∧
    ∀ e ∈ [(3 : ℂ), Complex.I], |e.re| ≤ limit ∧ |e.im| ≤ limit ∧ (e ≠ 0 → |e.re| < limit ∧ |e.im| < limit) :=
  eigs_inside _ (by simp)

/-! ### C136: spectra on logarithmic axes -/

/-- **C136, exactly.** A point of the spectrum is inside the axes, against frequency or period, exactly when frequency and eigenvalue are positive. -/
theorem spectrum_visible_exact (period : Bool) (f e : ℝ) : visible period f e ↔ 0 < f ∧ 0 < e := by
  unfold visible abscissa
  cases period with
  | false => simp
  | true =>
    by_cases h : f = 0
    · simp [h]
    · simp [h]

/-- **C136, violated.** The frequencies of a fit start with zero, and half of those of complex data are negative: these points are never shown. -/
theorem spectrum_visible_fails (period : Bool) (f e : ℝ) (h : f ≤ 0) : ¬ visible period f e := by
  rw [spectrum_visible_exact]
  exact fun h' => absurd h'.1 (not_lt.2 h)

/-- **C136.** Where a visible point is drawn: at its frequency, or at its period, the reciprocal of the frequency; so a larger frequency is
    further right in one figure and further left in the other. -/
theorem spectrum_position (f g : ℝ) (hf : 0 < f) (hfg : f < g) :
    abscissa false f = some f ∧ abscissa true f = some f⁻¹ ∧
      ∃ x y, abscissa true f = some x ∧ abscissa true g = some y ∧ y < x := by
  have h1 : abscissa true f = some f⁻¹ := by simp [abscissa, hf.ne']
  have h2 : abscissa true g = some g⁻¹ := by simp [abscissa, (hf.trans hfg).ne']
  exact ⟨rfl, h1, _, _, h1, h2, inv_strictAnti₀ hf hfg⟩

/-- **C136.** The shades never darken with the mode number and are greys. -/
theorem shade_mono (n k l : Nat) (hkl : k ≤ l) (hl : l < n) : 0 ≤ shade n k ∧ shade n k ≤ shade n l ∧ shade n l ≤ 1 := by
  have hn : (0 : ℝ) < n := by exact_mod_cast (by omega : 0 < n)
  have e : ∀ j : Nat, shade n j = if (0.95 : ℝ) ≤ j / n then 0.96 else (j : ℝ) / n := by
    intro j
    simp only [shade, ge_iff_le]
    rw [show (1 : ℝ) / n * j = j / n by ring]
  have h1 : (k : ℝ) / n ≤ l / n := by
    apply div_le_div_of_nonneg_right _ hn.le
    exact_mod_cast hkl
  have h0 : (0 : ℝ) ≤ k / n := by positivity
  rw [e, e]
  split_ifs with h2 h3 h3
  · norm_num
  · exact absurd (h2.trans h1) h3
  · refine ⟨h0, ?_, by norm_num⟩
    have := not_le.1 h2
    linarith
  · have := not_le.1 h3
    exact ⟨h0, h1, by linarith⟩

/-- **C136, exactly.** The curves of `n` modes have different shades exactly when there are fewer than forty. -/
theorem shade_injective_exact (n : Nat) : (∀ k < n, ∀ l < n, shade n k = shade n l → k = l) ↔ n < 40 := by
  have e : ∀ j : Nat, shade n j = if (0.95 : ℝ) ≤ j / n then 0.96 else (j : ℝ) / n := by
    intro j
    simp only [shade, ge_iff_le]
    rw [show (1 : ℝ) / n * j = j / n by ring]
  have cond : ∀ j : Nat, 0 < n → ((0.95 : ℝ) ≤ j / n ↔ 19 * n ≤ 20 * j) := by
    intro j hn
    have hn' : (0 : ℝ) < n := by exact_mod_cast hn
    rw [le_div_iff₀ hn']
    constructor
    · intro h
      have : (19 * n : ℝ) ≤ 20 * j := by linarith
      exact_mod_cast this
    · intro h
      have : (19 * n : ℝ) ≤ 20 * j := by exact_mod_cast h
      linarith
  constructor
  · intro H
    by_contra h
    push Not at h
    have h1 := H (n - 1) (by omega) (n - 2) (by omega) (by
      rw [e, e, if_pos ((cond _ (by omega)).2 (by omega)), if_pos ((cond _ (by omega)).2 (by omega))])
    omega
  · intro hn k hk l hl h
    have hn0 : 0 < n := by omega
    have hn' : (0 : ℝ) < n := by exact_mod_cast hn0
    rw [e, e] at h
    split_ifs at h with h1 h2 h2
    · rw [cond _ hn0] at h1 h2
      omega
    · exfalso
      have := not_le.1 h2
      rw [← h] at this
      norm_num at this
    · exfalso
      have := not_le.1 h1
      rw [h] at this
      norm_num at this
    · field_simp at h
      exact_mod_cast h

/-! ### C137: side by side -/

theorem levels_increase (r : ℝ × ℝ) : (∀ i < 8, levels r i < levels r (i + 1)) ↔ r.1 < r.2 := by
  constructor
  · intro h
    have := h 0 (by norm_num)
    simp only [levels, Nat.cast_zero, mul_zero, zero_div, Nat.zero_add, Nat.cast_one] at this
    linarith
  · intro h i _
    simp only [levels, Nat.cast_add, Nat.cast_one]
    have : (0 : ℝ) < (r.2 - r.1) / 8 := by linarith
    have e : r.1 + (r.2 - r.1) * (i + 1) / 8 - (r.1 + (r.2 - r.1) * i / 8) = (r.2 - r.1) / 8 := by ring
    linarith

/-- the range of colours `[lo, hi]` for the values `var1`: the least multiples of `10⁻ᵈ` around them -/
def RoundedRange (digits : Nat) (var1 : List ℝ) (lo hi : ℝ) : Prop :=
  (∃ k : ℤ, lo = k / 10 ^ digits) ∧ (∃ k : ℤ, hi = k / 10 ^ digits) ∧ (∀ x ∈ var1, lo ≤ x ∧ x ≤ hi) ∧
    (∃ x ∈ var1, x < lo + 1 / 10 ^ digits) ∧ ∃ x ∈ var1, hi - 1 / 10 ^ digits < x

theorem colourRange_spec (digits : Nat) (var1 : List ℝ) (h : var1 ≠ []) :
    ∃ lo hi, colourRange digits var1 = some (lo, hi) ∧ RoundedRange digits var1 lo hi := by
  obtain ⟨a, ha, ha1, ha2⟩ := maxOf_spec var1 h
  obtain ⟨b, hb, hb1, hb2⟩ := minOf_spec var1 h
  have hp : (0 : ℝ) < 10 ^ digits := by positivity
  refine ⟨_, _, by simp [colourRange, ha, hb]; exact ⟨rfl, rfl⟩, ⟨_, rfl⟩, ⟨_, rfl⟩, fun x hx => ⟨?_, ?_⟩, ⟨b, hb1, ?_⟩, ⟨a, ha1, ?_⟩⟩
  · rw [div_le_iff₀ hp]
    exact (Int.floor_le _).trans (mul_le_mul_of_nonneg_right (hb2 x hx) hp.le)
  · rw [le_div_iff₀ hp]
    exact (mul_le_mul_of_nonneg_right (ha2 x hx) hp.le).trans (Int.le_ceil _)
  · rw [← add_div, lt_div_iff₀ hp]
    exact Int.lt_floor_add_one _
  · rw [← sub_div, div_lt_iff₀ hp]
    have := Int.ceil_lt_add_one (a * 10 ^ digits)
    linarith

/-- **C137, exactly.** The call draws exactly when the first variable has values, not all of them the same multiple of `10⁻ᵈ`, and a third variable comes
    with a second; then every panel has the colour range rounded outwards from the first variable. -/
theorem subplots_exact (digits : Nat) (var1 : List ℝ) (var2 var3 : Option (List ℝ)) :
    ((subplots digits var1 var2 var3).isSome ↔
      var1 ≠ [] ∧ (¬ ∃ k : ℤ, ∀ x ∈ var1, x = k / 10 ^ digits) ∧ (var3.isSome → var2.isSome)) ∧
    ∀ panels, subplots digits var1 var2 var3 = some panels → panels.map Prod.fst = [var1] ++ var2.toList ++ var3.toList ∧
      ∃ lo hi, RoundedRange digits var1 lo hi ∧ ∀ p ∈ panels, p.2 = (lo, hi) := by
  by_cases h : var1 = []
  · subst h
    have : subplots digits [] var2 var3 = none := rfl
    simp [this]
  obtain ⟨lo, hi, hr, hs⟩ := colourRange_spec digits var1 h
  have hp : (0 : ℝ) < 10 ^ digits := by positivity
  obtain ⟨⟨kl, hkl⟩, ⟨kh, hkh⟩, h1, ⟨x, hx, hx'⟩, ⟨y, hy, hy'⟩⟩ := hs
  have hinc : lo < hi ↔ ¬ ∃ k : ℤ, ∀ x ∈ var1, x = k / 10 ^ digits := by
    constructor
    · rintro hlt ⟨k, hk⟩
      have e1 := hk x hx
      have e2 := hk y hy
      rw [e1, hkl, ← add_div, div_lt_div_iff_of_pos_right hp] at hx'
      rw [e2, hkh, ← sub_div, div_lt_div_iff_of_pos_right hp] at hy'
      have hx2 : k < kl + 1 := by exact_mod_cast hx'
      have hy2 : kh - 1 < k := by exact_mod_cast hy'
      rw [hkl, hkh, div_lt_div_iff_of_pos_right hp] at hlt
      have : kl < kh := by exact_mod_cast hlt
      omega
    · intro hne
      by_contra hlt
      apply hne
      refine ⟨kl, fun z hz => ?_⟩
      obtain ⟨z1, z2⟩ := h1 z hz
      rw [← hkl]
      exact le_antisymm (z2.trans (not_lt.1 hlt)) z1
  have hc : contourLevels (lo, hi) = if lo < hi then some (lo, hi) else none := by
    unfold contourLevels
    have e8 : levels (lo, hi) 8 = hi := by simp [levels]
    have e0 : levels (lo, hi) 0 = lo := by simp [levels]
    rw [e8, e0]
    by_cases hlt : lo < hi
    · rw [if_pos hlt, if_pos ((levels_increase (lo, hi)).2 hlt)]
    · rw [if_neg hlt, if_neg fun h' => hlt ((levels_increase (lo, hi)).1 h')]
  have hrr : RoundedRange digits var1 lo hi := ⟨⟨kl, hkl⟩, ⟨kh, hkh⟩, h1, ⟨x, hx, hx'⟩, ⟨y, hy, hy'⟩⟩
  unfold subplots
  rw [hr]
  simp only [Option.bind_eq_bind, Option.bind_some, hc, ← hinc]
  by_cases hlt : lo < hi
  · simp only [hlt, if_true, Option.bind_some]
    cases var2 <;> cases var3 <;> simp [h] <;> exact ⟨lo, hi, hrr, by rintro a b c; tauto⟩
  · simp [hlt]

/-- **C137, violated.** A value of another variable that exceeds the first by `10⁻ᵈ` or more is left blank. -/
theorem subplots_blank_fails (digits : Nat) (var1 v2 : List ℝ) (x : ℝ) (hx : ∀ y ∈ var1, y + 1 / 10 ^ digits ≤ x)
    (panels : List (List ℝ × (ℝ × ℝ))) (h : subplots digits var1 (some v2) none = some panels) :
    ∀ p ∈ panels, p.2.2 < x := by
  obtain ⟨-, lo, hi, ⟨-, -, -, -, ⟨y, hy, hy'⟩⟩, h2⟩ := (subplots_exact digits var1 (some v2) none).2 panels h
  intro p hp
  rw [h2 p hp]
  have := hx y hy
  show hi < x
  linarith

/-- **C137, violated.** A constant first variable such as zero cannot be drawn; neither can a third variable without a second. -/
theorem subplots_constant_fails (digits n : Nat) (k : ℤ) (var2 var3 : Option (List ℝ)) :
    subplots digits (List.replicate n ((k : ℝ) / 10 ^ digits)) var2 var3 = none ∧
      ∀ (var1 : List ℝ) (v3 : List ℝ), subplots digits var1 none (some v3) = none := by
  refine ⟨?_, fun var1 v3 => ?_⟩
  · rw [← Option.not_isSome_iff_eq_none, (subplots_exact _ _ _ _).1]
    rintro ⟨-, h, -⟩
    exact h ⟨k, fun x hx => (List.mem_replicate.1 hx).2⟩
  · rw [← Option.not_isSome_iff_eq_none, (subplots_exact _ _ _ _).1]
    simp

example : (subplots 6 [0, 1] (some [5]) none).isSome := by
  rw [(subplots_exact 6 [0, 1] (some [5]) none).1]
  refine ⟨by simp, ?_, by simp⟩
  rintro ⟨k, hk⟩
  have h0 := hk 0 (by simp)
  have h1 := hk 1 (by simp)
  rw [← h0] at h1
  norm_num at h1

end Verif.Props
