import Verif.Model.Methods
import Verif.Props.Names
import Verif.Props.Store
import Verif.Props.Training
import Verif.Props.Lookup
import Verif.Props.Blockdist
import Verif.Props.Peaks
import Verif.Props.Cache
/-
  C161–C165: files of pictures, the report, methods and sizes.
-/
namespace Verif.Props
open Verif Verif.Meth Verif.Names Verif.Train

/-! ### `splitext` of a name with inserted text -/

theorem last_run (c : Char) (l : List Char) : ∃ a, l = a ++ (l.reverse.takeWhile (· ≠ c)).reverse ∧ (a = [] ∨ ∃ d, a = d ++ [c]) ∧
    c ∉ (l.reverse.takeWhile (· ≠ c)).reverse := by
  refine ⟨(l.reverse.dropWhile (· ≠ c)).reverse, ?_, ?_, ?_⟩
  · rw [← List.reverse_append, List.takeWhile_append_dropWhile, List.reverse_reverse]
  · cases h : l.reverse.dropWhile (· ≠ c) with
    | nil => left; rfl
    | cons x r =>
      right
      have : (fun x => decide (x ≠ c)) x = false := by
        have := List.head?_dropWhile_not (fun x => decide (x ≠ c)) l.reverse
        rw [h] at this
        simpa using this
      have hx : x = c := by simpa using this
      exact ⟨r.reverse, by simp [hx]⟩
  · rw [List.mem_reverse]
    intro h
    have := (List.all_eq_true.1 List.all_takeWhile) c h
    simp at this

theorem afterSlash_of (dir b : List Char) (hdir : dir = [] ∨ ∃ d, dir = d ++ ['/']) (hb : '/' ∉ b) : afterSlash (dir ++ b) = b := by
  unfold afterSlash
  rw [List.reverse_append, takeWhile_append_stop]
  · simp
  · intro x hx
    simpa using fun (h : x = '/') => hb (h ▸ List.mem_reverse.1 hx)
  · intro x hx
    rcases hdir with rfl | ⟨d, rfl⟩
    · simp at hx
    · simp at hx
      subst hx
      decide

theorem pyExt_nodot (dir b : List Char) (hdir : dir = [] ∨ ∃ d, dir = d ++ ['/']) (hb : '/' ∉ b) (hd : '.' ∉ b) : pyExt (dir ++ b) = [] := by
  unfold pyExt
  rw [afterSlash_of dir b hdir hb]
  exact if_neg fun h => hd h.1

theorem pyExt_dots (dir stem e : List Char) (hdir : dir = [] ∨ ∃ d, dir = d ++ ['/']) (hs : ∀ c ∈ stem, c = '.') (h1 : '.' ∉ e) (h2 : '/' ∉ e) :
    pyExt (dir ++ (stem ++ '.' :: e)) = [] := by
  have hb : '/' ∉ stem ++ '.' :: e := by
    rw [List.mem_append, List.mem_cons]
    rintro (h | h | h)
    · exact absurd (hs _ h) (by decide)
    · exact absurd h (by decide)
    · exact h2 h
  unfold pyExt
  rw [afterSlash_of dir _ hdir hb]
  have he : ((stem ++ '.' :: e).reverse.takeWhile (· ≠ '.')).reverse = e := by
    have : (stem ++ '.' :: e).reverse = e.reverse ++ '.' :: stem.reverse := by simp
    rw [this, takeWhile_append_stop]
    · simp
    · intro x hx
      simp only [List.mem_reverse] at hx
      simpa using fun (h : x = '.') => h1 (h ▸ hx)
    · intro x hx
      simp at hx
      subst hx
      decide
  simp only [he]
  have hp : (stem ++ '.' :: e).take ((stem ++ '.' :: e).length - e.length - 1) = stem := by
    have : (stem ++ '.' :: e).length - e.length - 1 = stem.length := by simp; omega
    rw [this]
    simp
  rw [hp, if_neg]
  rintro ⟨-, h⟩
  rw [List.any_eq_true] at h
  obtain ⟨c, hc, h⟩ := h
  exact absurd (hs c hc) (by simpa using h)

theorem pyExt_cases (f : List Char) : (∃ dir stem e, f = dir ++ stem ++ '.' :: e ∧ (dir = [] ∨ ∃ d, dir = d ++ ['/']) ∧ '/' ∉ stem ∧
      (∃ c ∈ stem, c ≠ '.') ∧ '.' ∉ e ∧ '/' ∉ e) ∨
    (pyExt f = [] ∧ ∀ t, '.' ∉ t → '/' ∉ t → pyExt (f ++ t) = []) := by
  obtain ⟨dir, hf, hdir, hb⟩ := last_run '/' f
  generalize hbb : (f.reverse.takeWhile (· ≠ '/')).reverse = b at *
  obtain ⟨pre, hp, hpre, he⟩ := last_run '.' b
  generalize hee : (b.reverse.takeWhile (· ≠ '.')).reverse = e at *
  rcases hpre with rfl | ⟨stem, rfl⟩
  · right
    have hbe : b = e := hp
    subst hbe
    rw [hf]
    refine ⟨pyExt_nodot dir b hdir hb he, fun t h1 h2 => ?_⟩
    rw [List.append_assoc]
    exact pyExt_nodot dir _ hdir (by simp [hb, h2]) (by simp [he, h1])
  · have hb2 : b = stem ++ '.' :: e := by rw [hp]; simp
    have hes : '/' ∉ e := fun h => hb (by rw [hb2]; simp [h])
    have hss : '/' ∉ stem := fun h => hb (by rw [hb2]; simp [h])
    by_cases hs : ∃ c ∈ stem, c ≠ '.'
    · left
      exact ⟨dir, stem, e, by rw [hf, hb2]; simp, hdir, hss, hs, he, hes⟩
    · right
      have hs' : ∀ c ∈ stem, c = '.' := fun c hc => by
        by_contra h
        exact hs ⟨c, hc, h⟩
      rw [hf, hb2]
      refine ⟨pyExt_dots dir stem e hdir hs' he hes, fun t h1 h2 => ?_⟩
      have : dir ++ (stem ++ '.' :: e) ++ t = dir ++ (stem ++ '.' :: (e ++ t)) := by simp
      rw [this]
      exact pyExt_dots dir stem _ hdir hs' (by simp [he, h1]) (by simp [hes, h2])

/-- inserting text without dots and slashes before the extension keeps the extension and the start of the name -/
theorem pyExt_tagged (f t : List Char) (h1 : '.' ∉ t) (h2 : '/' ∉ t) : pyExt (tagged f t) = pyExt f ∧ pyBase f ++ pyExt f = f := by
  rcases pyExt_cases f with ⟨dir, stem, e, hf, hdir, hss, hs, he, hes⟩ | ⟨h, ht⟩
  · have he1 : pyExt f = '.' :: e := pyExt_named f e ⟨dir, stem, hf, hdir, hss, hs, he, hes⟩
    have hb : pyBase f = dir ++ stem := by
      unfold pyBase
      rw [he1]
      have : f.length - ('.' :: e).length = (dir ++ stem).length := by rw [hf]; simp; omega
      rw [this, hf, List.take_left]
    refine ⟨?_, by rw [hb, he1, ← hf]⟩
    rw [he1]
    refine pyExt_named _ e ⟨dir, stem ++ t, ?_, hdir, by simp [hss, h2], ?_, he, hes⟩
    · unfold tagged
      rw [hb, he1]
      simp
    · obtain ⟨c, hc, hn⟩ := hs
      exact ⟨c, by simp [hc], hn⟩
  · have hb : pyBase f = f := by
      unfold pyBase
      rw [h]
      simp
    unfold tagged
    rw [h, hb, List.append_nil]
    exact ⟨ht t h1 h2, by simp⟩

theorem tagged_inj {f f' t t' : List Char} (h1 : '.' ∉ t) (h2 : '/' ∉ t) (h1' : '.' ∉ t') (h2' : '/' ∉ t') (h : tagged f t = tagged f' t') :
    pyExt f = pyExt f' ∧ pyBase f ++ t = pyBase f' ++ t' := by
  have e : pyExt f = pyExt f' := by rw [← (pyExt_tagged f t h1 h2).1, ← (pyExt_tagged f' t' h1' h2').1, h]
  refine ⟨e, ?_⟩
  unfold tagged at h
  rw [e] at h
  exact List.append_cancel_right h

/-! ### numbers in names -/

/-- characters of a printed integer -/
def numChar (c : Char) : Bool := c = '-' ∨ ('0' ≤ c ∧ c ≤ '9')

theorem showNat_num (n : Nat) : ∀ c ∈ showNat n, numChar c = true ∧ c ≠ '-' := by
  have hd : ∀ d < 10, numChar (digitChar d) = true ∧ digitChar d ≠ '-' := by decide
  intro c hc
  unfold showNat at hc
  split at hc
  · simp at hc
    subst hc
    decide
  · rw [List.mem_map] at hc
    obtain ⟨d, hd1, rfl⟩ := hc
    exact hd d (Nat.digits_lt_base (by decide) (List.mem_reverse.1 hd1))

theorem showNat_inj {n m : Nat} (h : showNat n = showNat m) : n = m := by
  have key : ∀ k, k ≠ 0 → showNat k ≠ ['0'] := by
    intro k hk e
    unfold showNat at e
    rw [if_neg hk] at e
    have h1 : ((Nat.digits 10 k).reverse.map digitChar) = [0].map digitChar := e
    have h2 := map_digitChar_inj (fun d hd => Nat.digits_lt_base (by decide) (List.mem_reverse.1 hd)) (by simp) h1
    have h3 : Nat.digits 10 k = [0] := by rw [← List.reverse_reverse (Nat.digits 10 k), h2]; rfl
    have := Nat.ofDigits_digits 10 k
    rw [h3] at this
    simp at this
    exact hk this.symm
  by_cases hn : n = 0
  · by_contra hm
    refine key m (fun h0 => hm (by rw [hn, h0])) ?_
    rw [← h, hn]
    rfl
  · by_cases hm : m = 0
    · refine absurd ?_ (key n hn)
      rw [h, hm]
      rfl
    · unfold showNat at h
      rw [if_neg hn, if_neg hm] at h
      have := map_digitChar_inj (fun d hd => Nat.digits_lt_base (by decide) (List.mem_reverse.1 hd))
        (fun d hd => Nat.digits_lt_base (by decide) (List.mem_reverse.1 hd)) h
      have := List.reverse_injective this
      exact Nat.digits_inj_iff.1 this

theorem showInt_num (i : Int) : ∀ c ∈ showInt i, numChar c = true := by
  intro c hc
  unfold showInt at hc
  split at hc
  · rcases List.mem_cons.1 hc with rfl | hc
    · decide
    · exact (showNat_num _ c hc).1
  · exact (showNat_num _ c hc).1

theorem showInt_inj {i j : Int} (h : showInt i = showInt j) : i = j := by
  unfold showInt at h
  by_cases hi : i < 0 <;> by_cases hj : j < 0
  · rw [if_pos hi, if_pos hj, List.cons.injEq] at h
    have := showNat_inj h.2
    omega
  · rw [if_pos hi, if_neg hj] at h
    exact absurd rfl (showNat_num _ '-' (by rw [← h]; simp)).2
  · rw [if_neg hi, if_pos hj] at h
    exact absurd rfl (showNat_num _ '-' (by rw [h]; simp)).2
  · rw [if_neg hi, if_neg hj] at h
    have := showNat_inj h
    omega

/-- a number at the end of a name, after a letter, can be read off -/
theorem num_suffix {a a' : List Char} {c c' : Char} {i i' : Int} (hc : numChar c = false) (hc' : numChar c' = false)
    (h : a ++ c :: showInt i = a' ++ c' :: showInt i') : i = i' ∧ a = a' ∧ c = c' := by
  have hr : (showInt i).reverse ++ c :: a.reverse = (showInt i').reverse ++ c' :: a'.reverse := by
    have := congrArg List.reverse h
    simpa using this
  have h1 := congrArg (List.takeWhile numChar) hr
  rw [takeWhile_append_stop _ _ _ (fun x hx => showInt_num i x (List.mem_reverse.1 hx)) (by intro x hx; simp at hx; rw [← hx]; exact hc),
    takeWhile_append_stop _ _ _ (fun x hx => showInt_num i' x (List.mem_reverse.1 hx)) (by intro x hx; simp at hx; rw [← hx]; exact hc')] at h1
  have h2 := showInt_inj (List.reverse_injective h1)
  subst h2
  have h3 := List.append_cancel_left hr
  rw [List.cons.injEq] at h3
  exact ⟨rfl, List.reverse_injective h3.2, h3.1⟩

theorem num_no (i : Int) (c : Char) (hc : numChar c = false) : c ∉ showInt i := fun h => by
  have := showInt_num i c h
  rw [hc] at this
  exact absurd this (by decide)

theorem tag_no_dot (s : Shot) : '.' ∉ tag s ∧ '/' ∉ tag s := by
  have h1 : ∀ i, '.' ∉ showInt i := fun i => num_no i _ (by decide)
  have h2 : ∀ i, '/' ∉ showInt i := fun i => num_no i _ (by decide)
  cases s <;> simp [tag, h1, h2]

theorem base_tag_inj {b b' : List Char} {s s' : Shot} (h : b ++ tag s = b' ++ tag s') : b = b' ∧ s = s' := by
  -- the last letter before the last number
  have form : ∀ (b : List Char) (s : Shot), ∃ a c i, b ++ tag s = a ++ c :: showInt i ∧ numChar c = false ∧
      (match s with
        | .mode v m => a = b ++ ['_','v','a','r'] ++ showInt v ++ ['_','m','o','d'] ∧ c = 'e' ∧ i = m
        | .data v t => a = b ++ ['_','v','a','r'] ++ showInt v ++ ['_','t','i','m'] ∧ c = 'e' ∧ i = t
        | .coeff k => a = b ++ ['_','c','o','e','f','f','_','i'] ∧ c = 'd' ∧ i = k
        | .video v => a = b ++ ['_','v','a'] ∧ c = 'r' ∧ i = v) := by
    intro b s
    cases s with
    | mode v m => exact ⟨_, 'e', m, by simp [tag], by decide, rfl, rfl, rfl⟩
    | data v t => exact ⟨_, 'e', t, by simp [tag], by decide, rfl, rfl, rfl⟩
    | coeff k => exact ⟨_, 'd', k, by simp [tag], by decide, rfl, rfl, rfl⟩
    | video v => exact ⟨_, 'r', v, by simp [tag], by decide, rfl, rfl, rfl⟩
  obtain ⟨a, c, i, e, hc, hm⟩ := form b s
  obtain ⟨a', c', i', e', hc', hm'⟩ := form b' s'
  rw [e, e'] at h
  obtain ⟨hi, ha, hcc⟩ := num_suffix hc hc' h
  have inner : ∀ {v v' : Int} {l l' : List Char},
      b ++ ['_','v','a','r'] ++ showInt v ++ l = b' ++ ['_','v','a','r'] ++ showInt v' ++ l' → l.length = l'.length → b = b' ∧ v = v' ∧ l = l' := by
    intro v v' l l' h hl
    obtain ⟨h1, h2⟩ := List.append_inj' h hl
    have h3 : (b ++ ['_','v','a']) ++ 'r' :: showInt v = (b' ++ ['_','v','a']) ++ 'r' :: showInt v' := by simpa using h1
    obtain ⟨h4, h5, -⟩ := num_suffix (by decide) (by decide) h3
    exact ⟨List.append_cancel_right h5, h4, h2⟩
  cases s <;> cases s' <;> obtain ⟨x1, x2, x3⟩ := hm <;> obtain ⟨y1, y2, y3⟩ := hm' <;> rw [x1, y1] at ha <;> rw [x2, y2] at hcc <;>
    rw [x3, y3] at hi
  all_goals first | exact absurd hcc (by decide) | skip
  · obtain ⟨h1, h2, -⟩ := inner ha rfl
    exact ⟨h1, by rw [h2, hi]⟩
  · exact absurd (inner ha rfl).2.2 (by decide)
  · exact absurd (inner ha rfl).2.2 (by decide)
  · obtain ⟨h1, h2, -⟩ := inner ha rfl
    exact ⟨h1, by rw [h2, hi]⟩
  · exact ⟨List.append_cancel_right ha, by rw [hi]⟩
  · exact ⟨List.append_cancel_right ha, by rw [hi]⟩

/-- **C161 (names).**  Two pictures have the same file name only if they were saved under the same `filename` and are pictures of the same kind with the
    same indices. -/
theorem picture_names {f f' : Name} {s s' : Shot} (h : shotName f s = shotName f' s') : f = f' ∧ s = s' := by
  obtain ⟨h1, h2⟩ := tagged_inj (tag_no_dot s).1 (tag_no_dot s).2 (tag_no_dot s').1 (tag_no_dot s').2 h
  obtain ⟨h3, h4⟩ := base_tag_inj h2
  refine ⟨?_, h4⟩
  rw [← (pyExt_tagged f (tag s) (tag_no_dot s).1 (tag_no_dot s).2).2, ← (pyExt_tagged f' (tag s) (tag_no_dot s).1 (tag_no_dot s).2).2, h3, h1]

/-- **C161.**  After any sequence of plotting calls into a folder, the file of a picture shows the last picture asked for with that `filename`, kind and
    indices; files of other names are as they were. -/
theorem picture_files {β} (d : Dir β) (shots : List (Name × Shot × β)) :
    (∀ pre f s b post, shots = pre ++ (f, s, b) :: post → (∀ q ∈ post, ¬ (q.1 = f ∧ q.2.1 = s)) →
      (saveShots d shots).read (shotName f s) = some b) ∧
    ∀ n, (∀ q ∈ shots, n ≠ shotName q.1 q.2.1) → (saveShots d shots).read n = d.read n := by
  have key : ∀ (l : List (Name × Shot × β)) (d : Dir β) n, (∀ q ∈ l, n ≠ shotName q.1 q.2.1) → (saveShots d l).read n = d.read n := by
    intro l
    induction l with
    | nil => intro d n _; rfl
    | cons q l ih =>
      intro d n h
      have : saveShots d (q :: l) = saveShots (d.write (shotName q.1 q.2.1) q.2.2) l := rfl
      rw [this, ih _ _ fun q' hq' => h q' (by simp [hq']), read_write, if_neg (h q (by simp))]
  refine ⟨?_, key shots d⟩
  intro pre f s b post e hlast
  have : saveShots d shots = saveShots ((saveShots d pre).write (shotName f s) b) post := by
    rw [e]
    unfold saveShots
    rw [List.foldl_append]
    rfl
  rw [this, key post _ _ fun q hq h => ?_, read_write, if_pos rfl]
  obtain ⟨h1, h2⟩ := picture_names h
  exact hlast q hq ⟨h1.symm, h2.symm⟩

/-- the pictures of one call: every variable with every stored mode (postproc.py:413-418) -/
def modeCall {β} (file : Name) (vars modes : List Int) (pic : Int → Int → β) : List (Name × Shot × β) :=
  vars.flatMap fun v => modes.map fun m => (file, .mode v m, pic v m)

/-- **C161 for one call** of `plot_2d_modes_at_frequency` or `plot_3d_modes_slice_at_frequency`: every requested variable and mode has its own file with
    its own picture, also when indices are repeated or negative. -/
theorem mode_call_files {β} (d : Dir β) (file : Name) (vars modes : List Int) (pic : Int → Int → β) (v m : Int) (hv : v ∈ vars) (hm : m ∈ modes) :
    (saveShots d (modeCall file vars modes pic)).read (shotName file (.mode v m)) = some (pic v m) := by
  have hmem : (file, Shot.mode v m, pic v m) ∈ modeCall file vars modes pic := by
    unfold modeCall
    rw [List.mem_flatMap]
    exact ⟨v, hv, List.mem_map.2 ⟨m, hm, rfl⟩⟩
  have hall : ∀ q ∈ modeCall file vars modes pic, q.1 = file ∧ ∃ v' m', q.2 = (Shot.mode v' m', pic v' m') := by
    intro q hq
    unfold modeCall at hq
    rw [List.mem_flatMap] at hq
    obtain ⟨v', -, hq⟩ := hq
    obtain ⟨m', -, rfl⟩ := List.mem_map.1 hq
    exact ⟨rfl, v', m', rfl⟩
  generalize modeCall file vars modes pic = l at *
  clear hv hm
  -- the last occurrence
  have : ∃ pre post, l = pre ++ (file, Shot.mode v m, pic v m) :: post ∧ ∀ q ∈ post, ¬ (q.1 = file ∧ q.2.1 = Shot.mode v m) := by
    induction l with
    | nil => simp at hmem
    | cons q l ih =>
      by_cases hin : (file, Shot.mode v m, pic v m) ∈ l
      · obtain ⟨pre, post, e, h⟩ := ih hin fun q hq => hall q (by simp [hq])
        exact ⟨q :: pre, post, by rw [e]; rfl, h⟩
      · rcases List.mem_cons.1 hmem with h | h
        · refine ⟨[], l, by rw [h]; rfl, ?_⟩
          rintro q' hq' ⟨h1, h2⟩
          obtain ⟨-, v', m', e⟩ := hall q' (by simp [hq'])
          rw [e] at h2
          simp only [Shot.mode.injEq] at h2
          obtain ⟨rfl, rfl⟩ := h2
          refine hin ?_
          have : q' = (file, Shot.mode v' m', pic v' m') := by
            rw [← h1, ← e]
          rwa [this] at hq'
        · exact absurd h hin
  obtain ⟨pre, post, e, h⟩ := this
  exact (picture_files d l).1 pre file _ _ post e h

/-- **C161 for tracers**: with a printing of coordinates that tells them apart and uses neither `_`, `.` … -/
theorem tracer_names {C} (shown : C → Name) (hinj : ∀ a b, shown a = shown b → a = b) (hus : ∀ c, '_' ∉ shown c) {base : Name} {c c' : C}
    {v v' m m' : Int} (h : tracerName base (shown c) v m = tracerName base (shown c') v' m') : c = c' ∧ v = v' ∧ m = m' := by
  unfold tracerName tagged at h
  have h1 := List.append_cancel_left (List.append_cancel_right h)
  simp only [List.append_assoc] at h1
  have h2 := List.append_cancel_left h1
  have h3 : shown c ++ '_' :: (tag (.mode v m)).tail = shown c' ++ '_' :: (tag (.mode v' m')).tail := by simpa [tag] using h2
  obtain ⟨h4, h5⟩ := sep_inj (hus c) (hus c') h3
  have h6 : [] ++ tag (.mode v m) = [] ++ tag (.mode v' m') := by
    have : ∀ v m, tag (.mode v m) = '_' :: (tag (.mode v m)).tail := by intro v m; simp [tag]
    rw [this v m, this v' m', h5]
  have h7 := (base_tag_inj h6).2
  simp only [Shot.mode.injEq] at h7
  exact ⟨hinj _ _ h4, h7.1, h7.2⟩

theorem data_tracer_names {C} (shown : C → Name) (hinj : ∀ a b, shown a = shown b → a = b) (hus : ∀ c, '_' ∉ shown c) {base : Name} {c c' : C}
    {v v' : Int} (h : dataTracerName base (shown c) v = dataTracerName base (shown c') v') : c = c' ∧ v = v' := by
  unfold dataTracerName tagged at h
  have h1 := List.append_cancel_left (List.append_cancel_right h)
  simp only [List.append_assoc] at h1
  have h2 := List.append_cancel_left h1
  have h3 : shown c ++ '_' :: (tag (.video v)).tail = shown c' ++ '_' :: (tag (.video v')).tail := by simpa [tag] using h2
  obtain ⟨h4, h5⟩ := sep_inj (hus c) (hus c') h3
  have h6 : [] ++ tag (.video v) = [] ++ tag (.video v') := by
    have : ∀ v, tag (.video v) = '_' :: (tag (.video v)).tail := by intro v; simp [tag]
    rw [this v, this v', h5]
  have h7 := (base_tag_inj h6).2
  simp only [Shot.video.injEq] at h7
  exact ⟨hinj _ _ h4, h7⟩

example : shotName "out/m.v2/modes.png".toList (.mode 1 (-1)) = "out/m.v2/modes_var1_mode-1.png".toList := by decide +kernel
example : shotName "out.d/modes".toList (.data 0 12) = "out.d/modes_var0_time12".toList := by decide +kernel
example : (saveShots [] (modeCall "a.png".toList [0, 1] [0, 10] fun v m => v * 100 + m)).read "a_var1_mode10.png".toList = some 110 := by
  decide +kernel

/-! ### C162, C163: the report -/

theorem nearest_self (freq : List ℝ) (hnd : freq.Nodup) (i : Nat) (hi : i < freq.length) :
    Coef.findNearestFreq (freq.getD i 0) freq = some (freq.getD i 0, i) := by
  obtain ⟨j, hj, hm⟩ := nearest_freq (freq.getD i 0) freq (fun h => by rw [h] at hi; simp at hi)
  have h0 : |freq.getD j 0 - freq.getD i 0| ≤ 0 := by
    have := hm.2.1 i hi
    simpa using this
  have h1 : freq.getD j 0 = freq.getD i 0 := by
    have := abs_nonpos_iff.1 h0
    linarith
  have h2 : j = i := by
    have e : freq[j]'hm.1 = freq[i] := by simpa [hm.1, hi] using h1
    exact (List.Nodup.getElem_inj_iff hnd).1 e
  subst h2
  exact hj

/-- the pages that belong to peak `i` (counted without frequency zero) of mode `m`: the spectrum with that peak marked, then the picture of the first
    variable of that mode at that frequency, if the mode has been saved -/
def peakPages (stored : Nat) (q : Nat × Nat) : List Page :=
  Page.spectrum q.1 (q.2 + 1) :: (if q.1 < stored then [Page.picture (q.2 + 1) 0 q.1] else [])

/-- **C162, exact.**  The report of a single process: for exactly the peaks, the marked spectrum, and for the saved modes the picture of the mode at the
    marked frequency (not of a neighbouring one).  Ranks other than 0 have the spectra only. -/
theorem report_pages_exact (freq : List ℝ) (eigs : List (List ℝ)) (stored : Nat) (hlen : ∀ vs ∈ eigs, vs.length = freq.length)
    (hs : ∀ j k, j < k → k < freq.length → freq.getD j 0 < freq.getD k 0) (hpos : ∀ i < freq.length, 0 ≤ freq.getD i 0) :
    ∃ peaks : List (Nat × Nat),
      (∀ m i, (m, i) ∈ peaks ↔ ∃ vs, eigs[m]? = some vs ∧ i + 1 < vs.length ∧ IsPeakAt vs.tail freq.tail 5 i) ∧
      rankPages 0 freq eigs stored = some (peaks.flatMap (peakPages stored)) ∧
      ∀ r, r ≠ 0 → rankPages r freq eigs stored = some (peaks.map fun q => Page.spectrum q.1 (q.2 + 1)) := by
  have hnd : freq.Nodup := by
    rw [List.nodup_iff_pairwise_ne, List.pairwise_iff_getElem]
    intro i j hi hj hij h
    have := hs i j hij hj
    simp [hi, hj, h] at this
  obtain ⟨l, e, hl⟩ := report_pages_partial freq eigs hlen
    (fun j k hjk hk => by
      rcases Nat.lt_or_eq_of_le hjk with h | h
      · exact (hs j k h hk).le
      · rw [h]) hpos
  have htail : ∀ k, freq.tail.getD k 0 = freq.getD (k + 1) 0 := by
    intro k; cases freq <;> simp
  have hbound : ∀ q ∈ l, q.2 + 1 < freq.length := by
    rintro ⟨m, i⟩ hq
    obtain ⟨vs, h1, h2, -⟩ := (hl m i).1 hq
    rw [← hlen vs (List.mem_of_getElem? h1)]
    exact h2
  refine ⟨l, hl, ?_, ?_⟩
  · have : (l.mapM fun (q : Nat × Nat) => (modeMethod 0 (freq.tail.getD q.2 0) freq [0] [q.1] stored).map fun x => Page.spectrum q.1 (q.2 + 1) :: x)
        = some (l.map (peakPages stored)) := by
      refine mapM_some l _ _ fun q hq => ?_
      unfold modeMethod
      rw [if_pos rfl, htail, nearest_self freq hnd _ (hbound q hq)]
      unfold peakPages Plots.modePages
      by_cases h : q.1 < stored <;> simp [h]
    unfold rankPages
    rw [e]
    simp only [Option.bind_eq_bind, Option.bind_some, this]
    rfl
  · intro r hr
    have : (l.mapM fun (q : Nat × Nat) => (modeMethod r (freq.tail.getD q.2 0) freq [0] [q.1] stored).map fun x => Page.spectrum q.1 (q.2 + 1) :: x)
        = some (l.map fun q => [Page.spectrum q.1 (q.2 + 1)]) := by
      refine mapM_some l _ _ fun q hq => ?_
      unfold modeMethod
      rw [if_neg hr]
      rfl
    unfold rankPages
    rw [e]
    simp only [Option.bind_eq_bind, Option.bind_some, this]
    show some (List.flatten _) = _
    congr 1
    clear e hl hbound this
    induction l with
    | nil => rfl
    | cons q l ih => simp [ih]

/-- what the report file holds after all ranks of `order` have written it: the pages of the last one -/
theorem report_file_last (order : List Nat) (ho : order ≠ []) (freq : List ℝ) (eigs : List (List ℝ)) (stored : Nat)
    (hall : ∀ r, (rankPages r freq eigs stored).isSome) (d : Dir (List Page)) (name : Name) :
    ∃ d', reportFile order freq eigs stored d name = some d' ∧ d'.read name = rankPages (order.getLast ho) freq eigs stored ∧
      ∀ n, n ≠ name → d'.read n = d.read n := by
  unfold reportFile
  induction order generalizing d with
  | nil => exact absurd rfl ho
  | cons r order ih =>
    obtain ⟨pages, hp⟩ := Option.isSome_iff_exists.1 (hall r)
    rw [List.foldlM_cons, hp]
    simp only [Option.map_some, Option.bind_eq_bind, Option.bind_some]
    by_cases h : order = []
    · subst h
      refine ⟨d.write name pages, rfl, ?_, fun n hn => ?_⟩
      · rw [read_write, if_pos rfl]
        exact hp.symm
      · rw [read_write, if_neg hn]
    · obtain ⟨d', e, h1, h2⟩ := ih h (d.write name pages)
      refine ⟨d', e, ?_, fun n hn => ?_⟩
      · rw [h1, List.getLast_cons h]
      · rw [h2 n hn, read_write, if_neg hn]

/-- **C163, negation.**  On two or more ranks: as soon as a saved mode has a peak, the ranks may finish in an order after which the report has no picture
    of that mode, unlike the report of a serial run. -/
theorem report_ranks_fails (p : Nat) (hp : 2 ≤ p) (freq : List ℝ) (eigs : List (List ℝ)) (stored : Nat) (hlen : ∀ vs ∈ eigs, vs.length = freq.length)
    (hs : ∀ j k, j < k → k < freq.length → freq.getD j 0 < freq.getD k 0) (hpos : ∀ i < freq.length, 0 ≤ freq.getD i 0)
    (m i : Nat) (vs : List ℝ) (hv : eigs[m]? = some vs) (hi : i + 1 < vs.length) (hpk : IsPeakAt vs.tail freq.tail 5 i) (hm : m < stored)
    (d : Dir (List Page)) (name : Name) :
    ∃ order, order.Perm (List.range p) ∧ ∃ d' serial pages, reportFile order freq eigs stored d name = some d' ∧
      rankPages 0 freq eigs stored = some serial ∧ d'.read name = some pages ∧
      Page.picture (i + 1) 0 m ∈ serial ∧ Page.picture (i + 1) 0 m ∉ pages := by
  obtain ⟨peaks, h1, h2, h3⟩ := report_pages_exact freq eigs stored hlen hs hpos
  have ho : List.range p ≠ [] := by simp; omega
  have hl : (List.range p).getLast ho = p - 1 := by simp
  obtain ⟨d', e, hr, -⟩ := report_file_last (List.range p) ho freq eigs stored
    (fun r => by
      by_cases h : r = 0
      · rw [h, h2]; rfl
      · rw [h3 r h]; rfl) d name
  rw [hl, h3 (p - 1) (by omega)] at hr
  refine ⟨List.range p, List.Perm.refl _, d', _, _, e, h2, hr, ?_, ?_⟩
  · rw [List.mem_flatMap]
    exact ⟨(m, i), (h1 m i).2 ⟨vs, hv, hi, hpk⟩, by simp [peakPages, hm]⟩
  · intro h
    rw [List.mem_map] at h
    obtain ⟨q, -, h⟩ := h
    cases h

/-- **C163, partial**: a serial run, or rank 0 finishing last, leaves the report of a serial run.  Missing: other orders (`report_ranks_fails`). -/
theorem report_ranks_partial (order : List Nat) (ho : order ≠ []) (h0 : order.getLast ho = 0) (freq : List ℝ) (eigs : List (List ℝ)) (stored : Nat)
    (hlen : ∀ vs ∈ eigs, vs.length = freq.length) (hs : ∀ j k, j < k → k < freq.length → freq.getD j 0 < freq.getD k 0)
    (hpos : ∀ i < freq.length, 0 ≤ freq.getD i 0) (d : Dir (List Page)) (name : Name) :
    ∃ d' d'', reportFile order freq eigs stored d name = some d' ∧ reportFile [0] freq eigs stored d name = some d'' ∧
      ∀ n, d'.read n = d''.read n := by
  obtain ⟨peaks, h1, h2, h3⟩ := report_pages_exact freq eigs stored hlen hs hpos
  have hall : ∀ r, (rankPages r freq eigs stored).isSome := fun r => by
    by_cases h : r = 0
    · rw [h, h2]; rfl
    · rw [h3 r h]; rfl
  obtain ⟨d', e, a, b⟩ := report_file_last order ho freq eigs stored hall d name
  obtain ⟨d'', e', a', b'⟩ := report_file_last [0] (by simp) freq eigs stored hall d name
  refine ⟨d', d'', e, e', fun n => ?_⟩
  by_cases h : n = name
  · rw [h, a, a', h0]
    rfl
  · rw [b n h, b' n h]

theorem exPeak : IsPeakAt [1, 9, 1] [1, 2, 3] 5 1 where
  mean := by
    have h : ((List.range ([1, 9, 1] : List ℝ).length).filter fun j => decide (1 ≤ j + 5 ∧ j < 1 + 5)) = [0, 1, 2] := by
      show ((List.range 3).filter fun j => decide (1 ≤ j + 5 ∧ j < 1 + 5)) = [0, 1, 2]
      decide
    rw [h]; norm_num [List.getD]
  left := by norm_num [List.getD]
  right := by norm_num [List.getD]
  band := by
    intro j hj _ _
    have h : j = 0 ∨ j = 1 ∨ j = 2 := by simp at hj; omega
    rcases h with rfl | rfl | rfl <;> norm_num [List.getD]

theorem ex_axis : (∀ j k, j < k → k < ([0, 1, 2, 3] : List ℝ).length → ([0, 1, 2, 3] : List ℝ).getD j 0 < ([0, 1, 2, 3] : List ℝ).getD k 0) ∧
    ∀ i < ([0, 1, 2, 3] : List ℝ).length, (0 : ℝ) ≤ ([0, 1, 2, 3] : List ℝ).getD i 0 := by
  constructor
  · intro j k hjk hk
    have h : k = 0 ∨ k = 1 ∨ k = 2 ∨ k = 3 := by simp at hk; omega
    have h' : j = 0 ∨ j = 1 ∨ j = 2 ∨ j = 3 := by simp at hk; omega
    rcases h with rfl | rfl | rfl | rfl <;> rcases h' with rfl | rfl | rfl | rfl <;> first | omega | norm_num [List.getD]
  · intro i hi
    have h : i = 0 ∨ i = 1 ∨ i = 2 ∨ i = 3 := by simp at hi; omega
    rcases h with rfl | rfl | rfl | rfl <;> norm_num [List.getD]

example : ∃ order : List Nat, order.Perm [0, 1] ∧ ∃ d' serial pages, reportFile order [0, 1, 2, 3] [[5, 1, 9, 1]] 3 [] "r.pdf".toList = some d' ∧
    rankPages 0 [0, 1, 2, 3] [[5, 1, 9, 1]] 3 = some serial ∧ d'.read "r.pdf".toList = some pages ∧
    Page.picture 2 0 0 ∈ serial ∧ Page.picture 2 0 0 ∉ pages :=
  report_ranks_fails 2 le_rfl [0, 1, 2, 3] [[5, 1, 9, 1]] 3 (by simp) ex_axis.1 ex_axis.2 0 1 _ rfl (by simp) exPeak (by decide) [] _

/-- **C121 (unit).**  For positive frequencies per hour the period is printed in its natural unit: the number lies between one unit and the next larger
    unit (below an hour: less than sixty minutes). -/
theorem report_period_range (freq : ℝ) (h : 0 < freq) :
    match (Plots.reportPeriod freq "hours").2 with
    | "minutes" => 0 < (Plots.reportPeriod freq "hours").1 ∧ (Plots.reportPeriod freq "hours").1 < 60
    | "hours" => 1 ≤ (Plots.reportPeriod freq "hours").1 ∧ (Plots.reportPeriod freq "hours").1 < 24
    | "days" => 1 ≤ (Plots.reportPeriod freq "hours").1 ∧ (Plots.reportPeriod freq "hours").1 < 30.437
    | "months" => 1 ≤ (Plots.reportPeriod freq "hours").1 ∧ (Plots.reportPeriod freq "hours").1 < 365.25 / 30.437
    | "years" => 1 ≤ (Plots.reportPeriod freq "hours").1
    | _ => False := by
  have hp : 0 < 1 / freq := by positivity
  unfold Plots.reportPeriod
  generalize 1 / freq = t at *
  simp only [if_true]
  by_cases h1 : t < 1
  · rw [if_pos h1]
    show 0 < t * 60 ∧ t * 60 < 60
    constructor <;> linarith
  · rw [if_neg h1]
    by_cases h2 : 24 ≤ t ∧ t < 24 * (30437 / 1000)
    · rw [if_pos h2]
      show 1 ≤ t / 24 ∧ t / 24 < 30.437
      constructor <;> norm_num <;> linarith
    · rw [if_neg h2]
      by_cases h3 : 24 * (30437 / 1000) ≤ t ∧ t < 24 * (36525 / 100)
      · rw [if_pos h3]
        show 1 ≤ t / (24 * (30437 / 1000)) ∧ t / (24 * (30437 / 1000)) < 365.25 / 30.437
        constructor
        · rw [le_div_iff₀ (by norm_num)]; linarith [h3.1]
        · rw [div_lt_iff₀ (by norm_num)]; norm_num; linarith [h3.2]
      · rw [if_neg h3]
        by_cases h4 : 24 * (36525 / 100) ≤ t
        · rw [if_pos h4]
          show 1 ≤ t / (24 * (36525 / 100))
          rw [le_div_iff₀ (by norm_num)]; linarith
        · rw [if_neg h4]
          show 1 ≤ t ∧ t < 24
          refine ⟨by linarith, ?_⟩
          by_contra h5
          push Not at h2 h3 h4 h5
          have := h3 (h2 h5)
          linarith

/-! ### C164: the methods of a fitted object -/

/-- **C164, exact.**  Of the methods that wrap functions, exactly `plot_2d_mode_slice_vs_time` raises whatever its arguments and whatever the functions
    do; every other one returns what its function returns. -/
theorem methods_exact {α ρ} (run : String → α → Except String ρ) (m : String) (hm : m ∈ methods) (args : α) :
    callMethod run m args = if m = "plot_2d_mode_slice_vs_time" then .error "AttributeError" else run m args := by
  have h : ∀ m ∈ methods, m ∈ postFunctions ↔ m ≠ "plot_2d_mode_slice_vs_time" := by decide
  unfold callMethod
  by_cases e : m = "plot_2d_mode_slice_vs_time"
  · rw [if_pos e, if_neg fun h' => (h m hm).1 h' e]
  · rw [if_neg e, if_pos ((h m hm).2 e)]

/-- **C164, negation**: the method `plot_2d_mode_slice_vs_time` fails for all arguments. -/
theorem slice_method_fails {α ρ} (run : String → α → Except String ρ) (args : α) :
    callMethod run "plot_2d_mode_slice_vs_time" args = .error "AttributeError" :=
  (methods_exact run _ (by decide) args).trans (if_pos rfl)

/-- **C164 for `get_modes_at_freq`**: after a fit that saves modes the method returns what the function reads; without saving it returns `None`, never
    the modes of another fit. -/
theorem modes_method {ρ} (a b : Bool) (dir : String) (read : Nat → Except String ρ) (f : Nat) :
    modesMethod a b (some dir) read f = if a || b then (read f).map some else .ok none := rfl

/-! ### C165: sizes -/

/-- values per unit of the split axis -/
def restSize (nt : Nat) (sh : List Nat) (ax : Nat) : Nat := nt * size (sh.set ax 1)

theorem size_set_meth (sh : List Nat) (ax n : Nat) (hax : ax < sh.length) : size (sh.set ax n) = n * size (sh.set ax 1) := by
  induction sh generalizing ax with
  | nil => simp at hax
  | cons a sh ih => cases ax with
    | zero => simp [size]
    | succ ax =>
      simp only [List.set_cons_succ, size]
      rw [ih ax (by simpa using hax)]
      ring

theorem size_split (sh : List Nat) (ax : Nat) (hax : ax < sh.length) : size sh = ext sh ax * size (sh.set ax 1) := by
  rw [← size_set_meth sh ax _ hax]
  congr 1
  unfold ext
  rw [List.getD_eq_getElem _ _ hax, List.set_getElem_self]

/-- **C165.**  The sizes printed by a fit on `p` ranks: the total is the size of the whole data set, whatever `p`; the smallest and the largest share are
    attained, bracket all shares, and differ by at most one row of the split axis. -/
theorem sizes_printed (nt : Nat) (sh : List Nat) (ax p : Nat) (hax : ax < sh.length) (hp : 0 < p) :
    ∃ lo hi, getSizes ((List.range p).map (localSize nt sh ax p)) = some (lo, hi, nt * size sh) ∧
      (∃ r < p, localSize nt sh ax p r = lo) ∧ (∃ r < p, localSize nt sh ax p r = hi) ∧
      (∀ r < p, lo ≤ localSize nt sh ax p r ∧ localSize nt sh ax p r ≤ hi) ∧ hi ≤ lo + restSize nt sh ax := by
  have hloc : ∀ r, localSize nt sh ax p r = (Par.blockdist (ext sh ax) p r).1 * restSize nt sh ax := by
    intro r
    unfold localSize restSize
    rw [size_set_meth sh ax _ hax]
    ring
  have hne : (List.range p).map (localSize nt sh ax p) ≠ [] := by simp; omega
  obtain ⟨lo, hlo⟩ := Option.isSome_iff_exists.1 (List.isSome_min?_of_ne_nil hne)
  obtain ⟨hi, hhi⟩ := Option.isSome_iff_exists.1 (List.isSome_max?_of_ne_nil hne)
  have hlo' := List.min?_eq_some_iff.1 hlo
  have hhi' := List.max?_eq_some_iff.1 hhi
  have hmem : ∀ {x}, x ∈ (List.range p).map (localSize nt sh ax p) → ∃ r < p, localSize nt sh ax p r = x := by
    intro x hx
    obtain ⟨r, hr, e⟩ := List.mem_map.1 hx
    exact ⟨r, List.mem_range.1 hr, e⟩
  have hin : ∀ r < p, localSize nt sh ax p r ∈ (List.range p).map (localSize nt sh ax p) :=
    fun r hr => List.mem_map.2 ⟨r, List.mem_range.2 hr, rfl⟩
  refine ⟨lo, hi, ?_, hmem hlo'.1, hmem hhi'.1, fun r hr => ⟨hlo'.2 _ (hin r hr), hhi'.2 _ (hin r hr)⟩, ?_⟩
  · unfold getSizes
    rw [hlo, hhi]
    have hsum : ((List.range p).map (localSize nt sh ax p)).sum = nt * size sh := by
      have e : (List.range p).map (localSize nt sh ax p) = (List.range p).map fun r => (Par.blockdist (ext sh ax) p r).1 * restSize nt sh ax :=
        List.map_congr_left fun r _ => hloc r
      have e2 := sum_counts (ext sh ax) p hp
      rw [e, List.sum_map_mul_right]
      refine (congrArg (· * restSize nt sh ax) e2).trans ?_
      unfold restSize
      rw [size_split sh ax hax]
      ring
    rw [hsum]
    rfl
  · obtain ⟨r, hr, e⟩ := hmem hlo'.1
    obtain ⟨r', hr', e'⟩ := hmem hhi'.1
    have hb := (blockdist_balanced (ext sh ax) p hp).2.1
    have : (Par.blockdist (ext sh ax) p r').1 ≤ (Par.blockdist (ext sh ax) p r).1 + 1 := by
      rcases Nat.le_total r r' with h | h
      · have := (hb r r' h hr').1
        omega
      · exact (hb r' r h hr).2
    rw [← e, ← e', hloc, hloc]
    calc _ ≤ ((Par.blockdist (ext sh ax) p r).1 + 1) * restSize nt sh ax := Nat.mul_le_mul_right _ this
      _ = _ := by ring

example : getSizes ((List.range 3).map (localSize 10 [2, 7] 1 3)) = some (40, 60, 140) := by decide

end Verif.Props
