import Verif.Model.Names
import Mathlib.Data.Nat.Digits.Lemmas
import Mathlib.Data.List.Lex
import Mathlib.Tactic.Common
import Mathlib.Tactic.Ring
import Mathlib.Tactic.NormNum
/-
  C37: file names are unambiguous and their lexicographic order is the numeric order.
-/
namespace Verif.Props
open Verif.Names

theorem digitChar_inj {a b : Nat} (ha : a < 10) (hb : b < 10) (h : digitChar a = digitChar b) : a = b :=
  (by decide : ∀ a < 10, ∀ b < 10, digitChar a = digitChar b → a = b) a ha b hb h

theorem digitChar_lt {a b : Nat} (ha : a < 10) (hb : b < 10) : digitChar a < digitChar b ↔ a < b :=
  (by decide : ∀ a < 10, ∀ b < 10, (digitChar a < digitChar b ↔ a < b)) a ha b hb

theorem digitChar_ne_us {a : Nat} (ha : a < 10) : digitChar a ≠ '_' := by revert a; decide
theorem digitChar_ne_dot {a : Nat} (ha : a < 10) : digitChar a ≠ '.' := by revert a; decide
theorem digitChar_ne_f {a : Nat} (ha : a < 10) : digitChar a ≠ 'f' := by revert a; decide

/-- the padded digits -/
def padDigits (n : Nat) : List Nat :=
  List.replicate (8 - (Nat.digits 10 n).reverse.length) 0 ++ (Nat.digits 10 n).reverse

theorem pad8_eq (n : Nat) : pad8 n = (padDigits n).map digitChar := rfl

theorem padDigits_lt (n d : Nat) (h : d ∈ padDigits n) : d < 10 := by
  simp only [padDigits, List.mem_append, List.mem_reverse] at h
  rcases h with h | h
  · rw [(List.mem_replicate.1 h).2]; omega
  · exact Nat.digits_lt_base (by omega) h

theorem ofDigits_padDigits (n : Nat) : Nat.ofDigits 10 (padDigits n).reverse = n := by
  simp [padDigits, Nat.ofDigits_append, Nat.ofDigits_digits]

theorem padDigits_inj {n m : Nat} (h : padDigits n = padDigits m) : n = m := by
  rw [← ofDigits_padDigits n, ← ofDigits_padDigits m, h]

theorem map_digitChar_inj {l l' : List Nat} (hl : ∀ d ∈ l, d < 10) (hl' : ∀ d ∈ l', d < 10)
    (h : l.map digitChar = l'.map digitChar) : l = l' := by
  induction l generalizing l' with
  | nil => cases l' <;> simp_all
  | cons a l ih =>
    cases l' with
    | nil => simp at h
    | cons b l' =>
      simp only [List.map_cons, List.cons.injEq] at h
      rw [digitChar_inj (hl a (by simp)) (hl' b (by simp)) h.1,
        ih (fun d hd => hl d (by simp [hd])) (fun d hd => hl' d (by simp [hd])) h.2]

/-- Different indices are written differently, with no bound on the index. -/
theorem pad8_inj {n m : Nat} (h : pad8 n = pad8 m) : n = m :=
  padDigits_inj (map_digitChar_inj (padDigits_lt n) (padDigits_lt m) h)

theorem pad8_no_us (n : Nat) : '_' ∉ pad8 n := by
  rw [pad8_eq, List.mem_map]
  rintro ⟨d, hd, h⟩
  exact digitChar_ne_us (padDigits_lt n d hd) h

theorem pad8_no_dot (n : Nat) : '.' ∉ pad8 n := by
  rw [pad8_eq, List.mem_map]
  rintro ⟨d, hd, h⟩
  exact digitChar_ne_dot (padDigits_lt n d hd) h

theorem pad8_no_f (n : Nat) : 'f' ∉ pad8 n := by
  rw [pad8_eq, List.mem_map]
  rintro ⟨d, hd, h⟩
  exact digitChar_ne_f (padDigits_lt n d hd) h

/-- a separator not occurring in the fields makes the decomposition unique -/
theorem sep_inj {α} {c : α} {a b x y : List α} (ha : c ∉ a) (hb : c ∉ b)
    (h : a ++ c :: x = b ++ c :: y) : a = b ∧ x = y := by
  induction a generalizing b with
  | nil =>
    cases b with
    | nil => simpa using h
    | cons d b => simp only [List.nil_append, List.cons_append, List.cons.injEq] at h
                  exact absurd (by simp [h.1]) hb
  | cons d a ih =>
    cases b with
    | nil => simp only [List.nil_append, List.cons_append, List.cons.injEq] at h
             exact absurd (by simp [h.1]) ha
    | cons e b =>
      simp only [List.cons_append, List.cons.injEq] at h
      obtain ⟨h1, h2⟩ := ih (by simp_all) (by simp_all) h.2
      exact ⟨by rw [h.1, h1], h2⟩


/-- **C37 (unambiguous).**  Different indices have different file names, for all three kinds of files, with
    no bound on the indices; and a per-frequency file is never mistaken for a per-mode file. -/
theorem names_injective :
    (∀ f f', freqName f = freqName f' → f = f') ∧
    (∀ f m f' m', modeName f m = modeName f' m' → f = f' ∧ m = m') ∧
    (∀ b f b' f', fftName b f = fftName b' f' → b = b' ∧ f = f') ∧
    (∀ f f' m', freqName f ≠ modeName f' m') := by
  refine ⟨?_, ?_, ?_, ?_⟩
  · intro f f' h
    simp only [freqName, List.append_assoc] at h
    have := sep_inj (pad8_no_dot f) (pad8_no_dot f') (List.append_cancel_left h)
    exact pad8_inj this.1
  · intro f m f' m' h
    simp only [modeName, List.append_assoc] at h
    obtain ⟨h1, h2⟩ := sep_inj (pad8_no_us f) (pad8_no_us f') (List.append_cancel_left h)
    have h3 := sep_inj (pad8_no_dot m) (pad8_no_dot m') (List.append_cancel_left h2)
    exact ⟨pad8_inj h1, pad8_inj h3.1⟩
  · intro b f b' f' h
    simp only [fftName, List.append_assoc] at h
    obtain ⟨h1, h2⟩ := sep_inj (pad8_no_us b) (pad8_no_us b') (List.append_cancel_left h)
    have h3 := sep_inj (pad8_no_dot f) (pad8_no_dot f') (List.append_cancel_left h2)
    exact ⟨pad8_inj h1, pad8_inj h3.1⟩
  · intro f f' m' h
    have e : ['f','r','e','q','_','i','d','x','_','f'] = ['f','r','e','q','_','i','d','x','_'] ++ ['f'] := by decide
    simp only [freqName, modeName, List.append_assoc, e] at h
    have h2 := List.append_cancel_left h
    have : 'f' ∈ pad8 f ++ ['.','n','p','y'] := by rw [h2]; simp
    rw [List.mem_append] at this
    rcases this with h | h
    · exact pad8_no_f f h
    · revert h; decide

/-! ### order -/

theorem lex_ofDigits {l l' : List Nat} (hlen : l.length = l'.length) (hl : ∀ d ∈ l, d < 10)
    (hl' : ∀ d ∈ l', d < 10) :
    l.map digitChar < l'.map digitChar ↔ Nat.ofDigits 10 l.reverse < Nat.ofDigits 10 l'.reverse := by
  induction l generalizing l' with
  | nil => cases l' <;> simp_all
  | cons a l ih =>
    cases l' with
    | nil => simp at hlen
    | cons b l' =>
      have hlen' : l.length = l'.length := by simpa using hlen
      have ih' := ih hlen' (fun d hd => hl d (by simp [hd])) (fun d hd => hl' d (by simp [hd]))
      have ha := hl a (by simp)
      have hb := hl' b (by simp)
      have b1 : Nat.ofDigits 10 l.reverse < 10 ^ l.length := by
        have := Nat.ofDigits_lt_base_pow_length (b := 10) (l := l.reverse) (by omega)
          (fun x hx => hl x (by simp at hx; simp [hx]))
        simpa using this
      have b2 : Nat.ofDigits 10 l'.reverse < 10 ^ l.length := by
        have := Nat.ofDigits_lt_base_pow_length (b := 10) (l := l'.reverse) (by omega)
          (fun x hx => hl' x (by simp at hx; simp [hx]))
        simpa [hlen'] using this
      simp only [List.map_cons, List.cons_lt_cons_iff, digitChar_lt ha hb, ih', List.reverse_cons,
        Nat.ofDigits_append, List.length_reverse, Nat.ofDigits_singleton, ← hlen']
      generalize Nat.ofDigits 10 l.reverse = u at *
      generalize Nat.ofDigits 10 l'.reverse = v at *
      generalize 10 ^ l.length = p at *
      constructor
      · rintro (h | ⟨h1, h2⟩)
        · nlinarith [Nat.mul_le_mul_left p (show a + 1 ≤ b from h)]
        · have := digitChar_inj ha hb h1; subst this; omega
      · intro h
        rcases lt_trichotomy a b with hab | hab | hab
        · exact Or.inl hab
        · subst hab; exact Or.inr ⟨rfl, by omega⟩
        · have := Nat.mul_le_mul_left p (show b + 1 ≤ a from hab)
          rw [Nat.mul_add] at this; omega

theorem padDigits_length {n : Nat} (h : n < 10 ^ 8) : (padDigits n).length = 8 := by
  have : (Nat.digits 10 n).length ≤ 8 := (Nat.digits_length_le_iff (by omega) _).2 h
  simp [padDigits]; omega

/-- numeric order = lexicographic order for indices of at most eight digits -/
theorem pad8_lt_iff {n m : Nat} (hn : n < 10 ^ 8) (hm : m < 10 ^ 8) : pad8 n < pad8 m ↔ n < m := by
  rw [pad8_eq, pad8_eq, lex_ofDigits (by rw [padDigits_length hn, padDigits_length hm]) (padDigits_lt n)
    (padDigits_lt m), ofDigits_padDigits, ofDigits_padDigits]

theorem pad8_length {n : Nat} (h : n < 10 ^ 8) : (pad8 n).length = 8 := by
  rw [pad8_eq, List.length_map, padDigits_length h]

theorem append_lt_left (p a b : Name) : p ++ a < p ++ b ↔ a < b := by
  induction p with
  | nil => rfl
  | cons c p ih => simp [ih]

theorem append_lt_of_length {a b x y : Name} (h : a.length = b.length) :
    a ++ x < b ++ y ↔ a < b ∨ a = b ∧ x < y := by
  induction a generalizing b with
  | nil => cases b <;> simp_all
  | cons c a ih =>
    cases b with
    | nil => simp at h
    | cons d b =>
      simp only [List.cons_append, List.cons_lt_cons_iff, ih (by simpa using h), List.cons.injEq]
      tauto

/-- **C37 (order).**  For indices below 10⁸ (eight digits) the lexicographic order of the file names – the
    order in which `sorted`/`sort` list them – is the numeric order of the indices: frequency files by
    frequency, mode files by frequency then mode. -/
theorem names_ordered :
    (∀ f f', f < 10 ^ 8 → f' < 10 ^ 8 → (freqName f < freqName f' ↔ f < f')) ∧
    (∀ f m f' m', f < 10 ^ 8 → f' < 10 ^ 8 → m < 10 ^ 8 → m' < 10 ^ 8 →
      (modeName f m < modeName f' m' ↔ f < f' ∨ f = f' ∧ m < m')) := by
  constructor
  · intro f f' hf hf'
    simp only [freqName, List.append_assoc, append_lt_left]
    rw [append_lt_of_length (by rw [pad8_length hf, pad8_length hf']), pad8_lt_iff hf hf']
    simp
  · intro f m f' m' hf hf' hm hm'
    simp only [modeName, List.append_assoc, append_lt_left]
    rw [append_lt_of_length (by rw [pad8_length hf, pad8_length hf']), pad8_lt_iff hf hf', append_lt_left,
      append_lt_of_length (by rw [pad8_length hm, pad8_length hm']), pad8_lt_iff hm hm']
    constructor
    · rintro (h | ⟨h1, h2⟩)
      · exact Or.inl h
      · refine Or.inr ⟨pad8_inj h1, ?_⟩
        simpa using h2
    · rintro (h | ⟨h1, h2⟩)
      · exact Or.inl h
      · exact Or.inr ⟨by rw [h1], Or.inl h2⟩

/-- Beyond eight digits the order breaks (the bound in `names_ordered` is sharp). -/
theorem names_order_beyond : freqName (10 ^ 8) < freqName (10 ^ 8 - 1) := by
  have h1 : freqName (10 ^ 8) = ['f','r','e','q','_','i','d','x','_','1','0','0','0','0','0','0','0','0','.','n','p','y'] := by
    simp [freqName, pad8]; decide
  have h2 : freqName (10 ^ 8 - 1) = ['f','r','e','q','_','i','d','x','_','9','9','9','9','9','9','9','9','.','n','p','y'] := by
    simp [freqName, pad8]; decide
  rw [h1, h2]; decide

example : freqName 12 = ['f','r','e','q','_','i','d','x','_','0','0','0','0','0','0','1','2','.','n','p','y'] := by simp [freqName, pad8]; decide
example : fftName 3 0 = ['f','f','t','_','b','l','o','c','k','0','0','0','0','0','0','0','3','_','f','r','e','q','0','0','0','0','0','0','0','0','.','n','p','y'] := by simp [fftName, pad8]; decide
example : modeName 12 7 = ['f','r','e','q','_','i','d','x','_','f','0','0','0','0','0','0','1','2','_','m','0','0','0','0','0','0','0','7','.','n','p','y'] := by simp [modeName, pad8]; decide

end Verif.Props
