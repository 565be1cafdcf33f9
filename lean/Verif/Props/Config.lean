import Verif.Model.Config
/-
  C59: `read_config`.
-/
set_option linter.unusedVariables false
namespace Verif.Props
open Verif Verif.Config

variable {V : Type}

/-- The value the last entry of a section gives to `k` (specification).  An entry is `- key: value`, i.e. a
    mapping with one pair. -/
def lastEntry (l : List (List (String × V))) (k : String) : Option V :=
  l.reverse.findSome? fun d => d.head?.bind fun p => if p.1 = k then some p.2 else none

theorem dget_dset (d : List (String × V)) (k k' : String) (v : V) :
    dget (dset d k v) k' = if k = k' then some v else dget d k' := by
  induction d with
  | nil =>
    simp only [dset, dget, List.find?_nil]
    by_cases h : k = k' <;> simp [h]
  | cons p t ih =>
    simp only [dset]
    by_cases h1 : p.1 = k
    · rw [if_pos h1]
      by_cases h2 : k = k'
      · simp [dget, h1, h2]
      · simp [dget, h1, h2]
    · rw [if_neg h1]
      by_cases h3 : p.1 = k'
      · have : ¬ k = k' := fun e => h1 (h3.trans e.symm)
        simp [dget, h3, this]
      · have e : ∀ q : List (String × V), dget (p :: q) k' = dget q k' := by
          intro q; simp [dget, h3]
        have e1 : dget ((p.1, p.2) :: dset t k v) k' = dget (dset t k v) k' := e _
        rw [e1, ih, e]

/-- keys of a dict are distinct -/
def NodupKeys (d : List (String × V)) : Prop := (d.map (·.1)).Nodup

theorem dset_keys (d : List (String × V)) (k : String) (v : V) (x : String) :
    x ∈ (dset d k v).map (·.1) ↔ x = k ∨ x ∈ d.map (·.1) := by
  induction d with
  | nil => simp [dset]
  | cons p t ih =>
    simp only [dset]
    split
    next h => simp [h]
    next h =>
      simp only [List.map_cons, List.mem_cons, ih]
      constructor
      · rintro (h | h | h) <;> simp [h]
      · rintro (h | h | h) <;> simp [h]

theorem dset_nodup (d : List (String × V)) (k : String) (v : V) (h : NodupKeys d) : NodupKeys (dset d k v) := by
  unfold NodupKeys at *
  induction d with
  | nil => simp [dset]
  | cons p t ih =>
    simp only [dset]
    rw [List.map_cons, List.nodup_cons] at h
    split
    next e => simpa using h
    next e =>
      rw [List.map_cons, List.nodup_cons]
      refine ⟨?_, ih h.2⟩
      rw [dset_keys]
      rintro (h' | h')
      · exact e h'
      · exact h.1 h'

/-- the parse of one entry when it cannot fail -/
def setEntry (acc : List (String × V)) : List (String × V) → List (String × V)
  | [] => acc
  | (k, v) :: _ => dset acc k v

open Classical in
theorem parse_gen (l : List (List (String × V))) (acc : List (String × V)) :
    l.foldlM parseEntry acc =
    if [] ∈ l then .error "IndexError"
    else .ok (l.foldl setEntry acc) := by
  induction l generalizing acc with
  | nil => rfl
  | cons d l ih =>
    rw [List.foldlM_cons]
    cases d with
    | nil => simp [parseEntry, bind, Except.bind]
    | cons p t =>
      simp only [parseEntry, bind, Except.bind]
      rw [ih]
      simp [setEntry]

theorem foldl_get (l : List (List (String × V))) (acc : List (String × V)) (k : String) (h : [] ∉ l) :
    dget (l.foldl setEntry acc) k
      = (lastEntry l k).or (dget acc k) := by
  induction l generalizing acc with
  | nil => simp [lastEntry]
  | cons d l ih =>
    simp only [List.mem_cons, not_or] at h
    rw [List.foldl_cons, ih _ h.2]
    cases d with
    | nil => exact absurd rfl h.1
    | cons p t =>
      have e : lastEntry ((p :: t) :: l) k = (lastEntry l k).or (if p.1 = k then some p.2 else none) := by
        unfold lastEntry
        rw [List.reverse_cons, List.findSome?_append]
        congr 1
        simp [List.findSome?_cons]
        split <;> simp_all
      rw [e, setEntry, dget_dset]
      cases lastEntry l k with
      | some v => rfl
      | none =>
        simp only [Option.none_or]
        split <;> simp

/-- `_parse_yaml` succeeds exactly on lists without empty entries, and then the value of each key is the one of
    the last entry starting with it. -/
theorem parseYaml_spec (s : Section V) :
    (∀ l, s = .list l → [] ∉ l → ∃ p, parseYaml s = .ok p ∧ ∀ k, dget p k = lastEntry l k) ∧
    (∀ p, parseYaml s = .ok p → ∃ l, s = .list l ∧ [] ∉ l ∧ ∀ k, dget p k = lastEntry l k) := by
  constructor
  · rintro l rfl h
    refine ⟨l.foldl setEntry [], ?_, ?_⟩
    · rw [parseYaml, parse_gen, if_neg h]
    · intro k
      rw [foldl_get _ _ _ h]
      simp [dget]
  · intro p hp
    cases s with
    | null => simp [parseYaml] at hp
    | list l =>
      rw [parseYaml, parse_gen] at hp
      by_cases h : [] ∈ l
      · simp [h] at hp
      · rw [if_neg h] at hp
        refine ⟨l, rfl, h, ?_⟩
        intro k
        rw [← Except.ok.inj hp, foldl_get _ _ _ h]
        simp [dget]

theorem merge_get (a b : List (String × V)) (hb : NodupKeys b) (k : String) :
    dget (merge a b) k = (dget b k).or (dget a k) := by
  unfold merge NodupKeys at *
  induction b generalizing a with
  | nil => simp [dget]
  | cons p t ih =>
    rw [List.map_cons, List.nodup_cons] at hb
    rw [List.foldl_cons, ih _ hb.2, dget_dset]
    by_cases h : p.1 = k
    · have hn : dget t k = none := by
        unfold dget
        rw [Option.map_eq_none_iff, List.find?_eq_none]
        intro q hq
        simp only [decide_eq_true_eq]
        intro e
        apply hb.1
        rw [h, ← e]
        exact List.mem_map.mpr ⟨q, hq, rfl⟩
      have e : dget (p :: t) k = some p.2 := by simp [dget, h]
      rw [hn, e, if_pos h]; rfl
    · have e : dget (p :: t) k = dget t k := by simp [dget, h]
      rw [e, if_neg h]

theorem parseYaml_nodup (s : Section V) (p : List (String × V)) (h : parseYaml s = .ok p) : NodupKeys p := by
  cases s with
  | null => simp [parseYaml] at h
  | list l =>
    rw [parseYaml, parse_gen] at h
    by_cases h0 : [] ∈ l
    · simp [h0] at h
    · rw [if_neg h0] at h
      rw [← Except.ok.inj h]
      have : ∀ (l : List (List (String × V))) acc, NodupKeys acc →
          NodupKeys (l.foldl setEntry acc) := by
        intro l
        induction l with
        | nil => intro acc h; exact h
        | cons d l ih =>
          intro acc h
          rw [List.foldl_cons]
          apply ih
          cases d with
          | nil => exact h
          | cons p t => exact dset_nodup _ _ _ h
      exact this l [] (by simp [NodupKeys])

/-- value of a top-level section: its list of entries -/
def sectionOf (doc : List (String × Section V)) (name : String) : List (List (String × V)) :=
  match dget doc name with
  | some (.list l) => l
  | _ => []

theorem checkKeys_single {W : Type} (l : List (String × W)) (k : String) :
    (checkKeys l [k]).1 = true ↔ ∃ w, dget l k = some w := by
  have : (checkKeys l [k]).1 = (l.map (·.1)).contains k := by
    unfold checkKeys
    simp only [List.foldl_cons, List.foldl_nil]
    split <;> simp_all
  rw [this]
  unfold dget
  simp only [List.contains_iff_mem, List.mem_map, Option.map_eq_some_iff]
  constructor
  · rintro ⟨q, hq, rfl⟩
    cases h : l.find? (fun p => decide (p.1 = q.1)) with
    | none =>
      rw [List.find?_eq_none] at h
      exact absurd (h q hq) (by simp)
    | some r => exact ⟨r.2, r, rfl, rfl⟩
  · rintro ⟨w, q, hq, rfl⟩
    exact ⟨q, List.mem_of_find?_eq_some hq, by simpa using List.find?_some hq⟩

/-- C59 (values): whenever `read_config` returns, every key has the value of the last optional entry starting
    with it, else of the last required entry starting with it, else is absent.  Missing: the rejection of a
    file lacking a required parameter (`config_missing_fails`). -/
theorem config_values_partial (doc : List (String × Section V)) (p : List (String × V))
    (h : readConfig doc = .ok p) (k : String) :
    dget p k = (lastEntry (sectionOf doc "optional") k).or (lastEntry (sectionOf doc "required") k) := by
  unfold readConfig at h
  split at h
  · simp at h
  · next lReq hreq =>
    split at h
    · simp at h
    · next pr hpr =>
      obtain ⟨l, rfl, hl, hv⟩ := (parseYaml_spec lReq).2 pr hpr
      have er : sectionOf doc "required" = l := by simp [sectionOf, hreq]
      simp only [] at h
      split at h
      · next hf =>
        split at h
        · simp at h
        · next lOpt hopt =>
          split at h
          · simp at h
          · next po hpo =>
            obtain ⟨l', rfl, hl', hv'⟩ := (parseYaml_spec lOpt).2 po hpo
            have eo : sectionOf doc "optional" = l' := by simp [sectionOf, hopt]
            rw [← Except.ok.inj h, merge_get _ _ (parseYaml_nodup _ _ hpo), hv, hv', er, eo]
      · next hf =>
        have eo : sectionOf doc "optional" = [] := by
          unfold sectionOf
          cases h' : dget doc "optional" with
          | none => rfl
          | some w => exact absurd ((checkKeys_single doc "optional").mpr ⟨w, h'⟩) hf
        rw [← Except.ok.inj h, hv, er, eo]
        simp [lastEntry]

/-- Exactly which files are accepted: there is a `required` section, it and the `optional` section (if any)
    are lists without empty entries. -/
theorem config_accepts (doc : List (String × Section V)) :
    (∃ p, readConfig doc = .ok p) ↔
      (∃ l, dget doc "required" = some (.list l) ∧ [] ∉ l) ∧
      (dget doc "optional" = none ∨ ∃ l, dget doc "optional" = some (.list l) ∧ [] ∉ l) := by
  constructor
  · rintro ⟨p, h⟩
    unfold readConfig at h
    split at h
    · simp at h
    · next lReq hreq =>
      split at h
      · simp at h
      · next pr hpr =>
        obtain ⟨l, rfl, hl, hv⟩ := (parseYaml_spec lReq).2 pr hpr
        refine ⟨⟨l, hreq, hl⟩, ?_⟩
        simp only [] at h
        split at h
        · split at h
          · simp at h
          · next lOpt hopt =>
            split at h
            · simp at h
            · next po hpo =>
              obtain ⟨l', rfl, hl', _⟩ := (parseYaml_spec lOpt).2 po hpo
              exact Or.inr ⟨l', hopt, hl'⟩
        · next hf =>
          left
          cases h' : dget doc "optional" with
          | none => rfl
          | some w => exact absurd ((checkKeys_single doc "optional").mpr ⟨w, h'⟩) hf
  · rintro ⟨⟨l, hreq, hl⟩, ho⟩
    obtain ⟨pr, hpr, _⟩ := (parseYaml_spec (.list l)).1 l rfl hl
    unfold readConfig
    simp only [hreq, hpr]
    rcases ho with ho | ⟨l', ho, hl'⟩
    · have : (checkKeys doc ["optional"]).1 = false := by
        rw [Bool.eq_false_iff]
        intro hc
        obtain ⟨w, hw⟩ := (checkKeys_single doc "optional").mp hc
        rw [ho] at hw
        exact absurd hw (by simp)
      rw [this]
      exact ⟨pr, rfl⟩
    · obtain ⟨po, hpo, _⟩ := (parseYaml_spec (.list l')).1 l' rfl hl'
      have : (checkKeys doc ["optional"]).1 = true := (checkKeys_single doc "optional").mpr ⟨_, ho⟩
      rw [this]
      simp only [ho, hpo, if_true]
      exact ⟨_, rfl⟩

/-- C59, negation: a file without any of the required parameters is accepted (the result of the check is
    dropped), and so is every file whose required section is any list of one-key entries. -/
theorem config_missing_fails : readConfig [("required", .list ([] : List (List (String × V))))] = .ok [] := by
  have h1 : dget [("required", Section.list ([] : List (List (String × V))))] "required"
      = some (.list []) := by simp [dget]
  have h2 : (checkKeys [("required", Section.list ([] : List (List (String × V))))] ["optional"]).1 = false := by
    rw [Bool.eq_false_iff]
    intro hc
    obtain ⟨w, hw⟩ := (checkKeys_single _ "optional").mp hc
    simp [dget] at hw
  unfold readConfig
  simp only [h1, h2, parseYaml]
  rfl

/-- C59, second negation: the second key of a list item (a forgotten dash) is silently dropped. -/
theorem config_second_key_fails (k1 k2 : String) (v1 v2 : V) (h : k1 ≠ k2) (p : List (String × V))
    (hp : readConfig [("required", .list [[(k1, v1), (k2, v2)]])] = .ok p) :
    dget p k1 = some v1 ∧ dget p k2 = none := by
  have := config_values_partial _ p hp
  refine ⟨?_, ?_⟩ <;> rw [this] <;> simp [lastEntry, sectionOf, dget, h]

example : ∃ p, readConfig [("required", .list [[("time_step", 1)], [("n_dft", 64)]]),
    ("optional", .list [[("overlap", 50)], [("n_dft", 32)]])] = .ok p ∧ dget p "n_dft" = some 32
      ∧ dget p "time_step" = some 1 := by
  obtain ⟨p, hp⟩ := (config_accepts [("required", .list [[("time_step", 1)], [("n_dft", 64)]]),
    ("optional", .list [[("overlap", 50)], [("n_dft", 32)]])]).mpr
      ⟨⟨_, by simp [dget]; rfl, by simp⟩, Or.inr ⟨_, by simp [dget]; rfl, by simp⟩⟩
  refine ⟨p, hp, ?_, ?_⟩ <;> rw [config_values_partial _ p hp] <;>
    simp [lastEntry, sectionOf, dget]

end Verif.Props
