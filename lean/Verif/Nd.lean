/-
  n-d arrays with numpy's C-order semantics.  Shared by all models.

  Models numpy itself (not /repo): `ndarray.shape`, integer indexing, basic slicing
  `a[..., s:s+n, ...]` along one axis, `np.concatenate(..., axis)`, and the C-order
  (row-major) linearisation used by `.npy` files, `reshape` and MPI sub-array types.
-/
namespace Verif

/-- A numpy array: a shape and a (total) indexing function.  Only indices in range matter. -/
structure Arr (α : Type) where
  shape : List Nat
  at' : List Nat → α

/-- `idx` is a valid index for shape `sh`: same length and each entry below the extent. -/
def InRange : List Nat → List Nat → Prop
  | [], [] => True
  | n :: ns, i :: is => i < n ∧ InRange ns is
  | _, _ => False

/-- Equality of arrays as numpy values: same shape, same in-range entries. -/
def Arr.Eqv {α} (a b : Arr α) : Prop :=
  a.shape = b.shape ∧ ∀ idx, InRange a.shape idx → a.at' idx = b.at' idx

/-- Product of the extents (`np.prod(shape)` / `a.size`). -/
def size : List Nat → Nat
  | [] => 1
  | n :: ns => n * size ns

/-- C-order (row-major) position of an index. -/
def ravel : List Nat → List Nat → Nat
  | _ :: ns, i :: is => i * size ns + ravel ns is
  | _, _ => 0

/-- Inverse of `ravel`. -/
def unravel : List Nat → Nat → List Nat
  | [], _ => []
  | _ :: ns, k => (k / size ns) :: unravel ns (k % size ns)

/-- All indices of a shape in C order. -/
def allIdx : List Nat → List (List Nat)
  | [] => [[]]
  | n :: ns => (List.range n).flatMap fun i => (allIdx ns).map (i :: ·)

/-- extent along an axis -/
def ext (sh : List Nat) (ax : Nat) : Nat := sh.getD ax 0

/-- `a[:, ..., s:s+n, ..., :]` (slice on axis `ax`); numpy clamps the slice to the extent. -/
def Arr.slice {α} (a : Arr α) (ax s n : Nat) : Arr α where
  shape := a.shape.set ax (min (s + n) (ext a.shape ax) - s)
  at' := fun idx => a.at' (idx.set ax (idx.getD ax 0 + s))

/-- Selects the piece containing offset `i` along `ax`, with the offset inside that piece. -/
def pick {α} [Inhabited α] (ax : Nat) : List (Arr α) → List Nat → Nat → α
  | [], _, _ => default
  | p :: ps, idx, i =>
      if i < ext p.shape ax then p.at' (idx.set ax i)
      else pick ax ps idx (i - ext p.shape ax)

/-- `np.concatenate(pieces, axis=ax)` for a list of pieces (shape taken from the first piece with
    the axis extent replaced by the sum). -/
def concat {α} [Inhabited α] (ax : Nat) (ps : List (Arr α)) : Arr α where
  shape := (match ps with | [] => [] | p :: _ => p.shape).set ax ((ps.map fun p : Arr α => ext p.shape ax).sum)
  at' := fun idx => pick ax ps idx (idx.getD ax 0)

/-! ### Lemmas -/

theorem InRange.length {sh idx} (h : InRange sh idx) : idx.length = sh.length := by
  induction sh generalizing idx with
  | nil => cases idx <;> simp_all [InRange]
  | cons n ns ih => cases idx with
    | nil => simp [InRange] at h
    | cons i is => simp [ih h.2]

theorem InRange.getD_lt {sh idx} (h : InRange sh idx) (ax : Nat) (hax : ax < sh.length) :
    idx.getD ax 0 < ext sh ax := by
  induction sh generalizing idx ax with
  | nil => simp at hax
  | cons n ns ih => cases idx with
    | nil => simp [InRange] at h
    | cons i is => cases ax with
      | zero => simpa [ext] using h.1
      | succ k => simpa [ext] using ih h.2 k (by simpa using hax)

theorem InRange.set {sh idx} (h : InRange sh idx) (ax m i : Nat) (hi : i < m) :
    InRange (sh.set ax m) (idx.set ax i) := by
  induction sh generalizing idx ax with
  | nil => cases idx <;> simp_all [InRange]
  | cons n ns ih => cases idx with
    | nil => simp [InRange] at h
    | cons j is => cases ax with
      | zero => exact ⟨hi, h.2⟩
      | succ k => exact ⟨h.1, ih h.2 k⟩

theorem inRange_iff {sh idx} : InRange sh idx ↔
    idx.length = sh.length ∧ ∀ ax, ax < sh.length → idx.getD ax 0 < ext sh ax := by
  constructor
  · exact fun h => ⟨h.length, fun ax hax => h.getD_lt ax hax⟩
  · intro ⟨hl, h⟩
    induction sh generalizing idx with
    | nil => cases idx <;> simp_all [InRange]
    | cons n ns ih => cases idx with
      | nil => simp at hl
      | cons i is =>
        refine ⟨by simpa [ext] using h 0 (by simp), ih (by simpa using hl) ?_⟩
        intro ax hax
        simpa [ext] using h (ax+1) (by simpa using hax)

theorem ravel_lt {sh idx} (h : InRange sh idx) : ravel sh idx < size sh := by
  induction sh generalizing idx with
  | nil => cases idx <;> simp_all [InRange, ravel, size]
  | cons n ns ih => cases idx with
    | nil => simp [InRange] at h
    | cons i is =>
      have := ih h.2
      have h1 : i + 1 ≤ n := h.1
      have h2 : (i + 1) * size ns ≤ n * size ns := Nat.mul_le_mul_right _ h1
      simp only [ravel, size]
      rw [Nat.add_mul] at h2
      omega

theorem unravel_ravel {sh idx} (h : InRange sh idx) : unravel sh (ravel sh idx) = idx := by
  induction sh generalizing idx with
  | nil => cases idx <;> simp_all [InRange, unravel]
  | cons n ns ih => cases idx with
    | nil => simp [InRange] at h
    | cons i is =>
      have hlt := ravel_lt h.2
      have hpos : 0 < size ns := by omega
      simp only [ravel, unravel]
      rw [Nat.mul_comm i, Nat.mul_add_div hpos, Nat.mul_add_mod, Nat.div_eq_of_lt hlt,
        Nat.mod_eq_of_lt hlt, ih h.2]
      simp

theorem inRange_unravel {sh k} (h : k < size sh) : InRange sh (unravel sh k) := by
  induction sh generalizing k with
  | nil => simp [unravel, InRange]
  | cons n ns ih =>
    simp only [size] at h
    have hpos : 0 < size ns := by
      rcases Nat.eq_zero_or_pos (size ns) with h0 | h0
      · rw [h0] at h; simp at h
      · exact h0
    exact ⟨(Nat.div_lt_iff_lt_mul hpos).2 h, ih (Nat.mod_lt _ hpos)⟩

theorem ravel_unravel {sh k} (h : k < size sh) : ravel sh (unravel sh k) = k := by
  induction sh generalizing k with
  | nil => simp [size] at h; simp [ravel, h]
  | cons n ns ih =>
    simp only [size] at h
    have hpos : 0 < size ns := by
      rcases Nat.eq_zero_or_pos (size ns) with h0 | h0
      · rw [h0] at h; simp at h
      · exact h0
    simp only [unravel, ravel, ih (Nat.mod_lt k hpos)]
    rw [Nat.mul_comm]; exact Nat.div_add_mod k (size ns)

theorem ravel_inj {sh a b} (ha : InRange sh a) (hb : InRange sh b) (h : ravel sh a = ravel sh b) :
    a = b := by
  rw [← unravel_ravel ha, ← unravel_ravel hb, h]

theorem mem_allIdx {sh idx} : idx ∈ allIdx sh ↔ InRange sh idx := by
  induction sh generalizing idx with
  | nil => cases idx <;> simp [allIdx, InRange]
  | cons n ns ih =>
    cases idx with
    | nil => simp [allIdx, InRange]
    | cons i is =>
      simp only [allIdx, List.mem_flatMap, List.mem_range, List.mem_map, InRange]
      constructor
      · rintro ⟨a, ha, b, hb, hab⟩
        cases hab
        exact ⟨ha, ih.1 hb⟩
      · rintro ⟨h1, h2⟩
        exact ⟨i, h1, is, ih.2 h2, rfl⟩

theorem Arr.Eqv.refl {α} (a : Arr α) : a.Eqv a := ⟨rfl, fun _ _ => rfl⟩
theorem Arr.Eqv.symm {α} {a b : Arr α} (h : a.Eqv b) : b.Eqv a :=
  ⟨h.1.symm, fun i hi => (h.2 i (h.1 ▸ hi)).symm⟩
theorem Arr.Eqv.trans {α} {a b c : Arr α} (h : a.Eqv b) (h' : b.Eqv c) : a.Eqv c :=
  ⟨h.1.trans h'.1, fun i hi => (h.2 i hi).trans (h'.2 i (h.1 ▸ hi))⟩

theorem ext_set {sh : List Nat} {ax n : Nat} (h : ax < sh.length) : ext (sh.set ax n) ax = n := by
  simp [ext, h]

theorem ext_set_ne {sh : List Nat} {ax bx n : Nat} (h : ax ≠ bx) : ext (sh.set ax n) bx = ext sh bx := by
  simp [ext, List.getD_eq_getElem?_getD, List.getElem?_set_ne h]

theorem size_pos_of_inRange {sh idx} (h : InRange sh idx) : 0 < size sh :=
  Nat.lt_of_le_of_lt (Nat.zero_le _) (ravel_lt h)

end Verif
