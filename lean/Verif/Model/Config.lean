/-
  Model of /repo/pyspod/utils/io.py:44-98 `read_config` and of the dispatch of `read_data` (12-41).
  A parsed YAML value `V` is opaque; a section is what `yaml.load` returned for it.
-/
namespace Verif.Config

variable {V : Type}

/-- What a YAML document can hold where `read_config` expects a list of one-key mappings. -/
inductive Section (V : Type)
  /-- a YAML sequence of mappings, each the list of its (key, value) pairs in file order -/
  | list (l : List (List (String × V)))
  /-- an empty section (`required:` with nothing below): Python `None` -/
  | null

/-- Python dict as association list, `d[k] = v`: overwrite in place or append. -/
def dset : List (String × V) → String → V → List (String × V)
  | [], k, v => [(k, v)]
  | (k', v') :: t, k, v => if k' = k then (k', v) :: t else (k', v') :: dset t k v

/-- `d.get(k)` -/
def dget (d : List (String × V)) (k : String) : Option V := (d.find? fun p => p.1 = k).map (·.2)

/-- io.py:82-84, body of the loop -/
def parseEntry (acc : List (String × V)) : List (String × V) → Except String (List (String × V))
  | [] => .error "IndexError"
  | (k, v) :: _ => .ok (dset acc k v)

/-- io.py:79-85 `_parse_yaml`: `k = list(d.keys())[0]` (IndexError on an empty mapping); `enumerate(None)`
    is a TypeError. -/
def parseYaml : Section V → Except String (List (String × V))
  | .null => .error "TypeError"
  | .list l => l.foldlM parseEntry []

/-- io.py:88-97 `_check_keys`: flag and the missing keys. -/
def checkKeys {W : Type} (l : List (String × W)) (keys : List String) : Bool × List String :=
  keys.foldl (fun (f, nf) k => if (l.map (·.1)).contains k then (f, nf) else (false, nf ++ [k])) (true, [])

/-- `{**a, **b}` -/
def merge (a b : List (String × V)) : List (String × V) := b.foldl (fun d p => dset d p.1 p.2) a

/-- io.py:43-76 `read_config` after `yaml.load`: `doc` is the top-level mapping.
    The result of the required-key check (line 68) is assigned and never used. -/
def readConfig (doc : List (String × Section V)) : Except String (List (String × V)) :=
  match dget doc "required" with
  | none => .error "KeyError"
  | some lReq =>
    match parseYaml lReq with
    | .error e => .error e
    | .ok paramsReq =>
      let _fk := checkKeys paramsReq ["time_step", "n_space_dims", "n_variables", "n_dft"]
      let f := (checkKeys doc ["optional"]).1
      if f then
        match dget doc "optional" with
        | none => .error "KeyError"
        | some lOpt => match parseYaml lOpt with
          | .error e => .error e
          | .ok paramsOpt => .ok (merge paramsReq paramsOpt)
      else .ok paramsReq

end Verif.Config
