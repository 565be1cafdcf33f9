import Verif.Model.Fit
import Verif.Model.StreamFit
/-
  What the eigenvalue file of a fit holds besides the eigenvalues (/repo/pyspod/spod/base.py:510-513, 692-699, standard.py:355-365, streaming.py:74, 254), and which
  attributes of a fitted object can be read (base.py:51-130 and 142-390).
-/
namespace Verif.Attr
open Verif Verif.Spod Verif.Fit Verif.SFit

/-! ### `eigs_freq.npz` -/

/-- An array of two axes: its shape and its values. -/
structure Table where
  rows : Nat
  cols : Nat
  val : Nat → Nat → ℝ

/-- `eigs_freq.npz` (base.py:692-697): the eigenvalues and their upper and lower bounds.  Simplification: the frequencies are left out (C22, C23), and the bounds,
    stored as complex numbers, are real here. -/
structure EigsFile where
  eigs : Table
  upper : Table
  lower : Table

/-- base.py:513: `_eigs_c = np.zeros([n_freq, n_blocks, 2])`; `(eigs_c[:,:,0], eigs_c[:,:,1])` -/
def initBounds (nf nb : Nat) : Table × Table := (⟨nf, nb, fun _ _ => 0⟩, ⟨nf, nb, fun _ _ => 0⟩)

/-- standard.py:355-365: the bounds are filled in from the eigenvalues (`confBounds` gives `(lower, upper)`). -/
noncomputable def standardEigsFile (ginv : Nat → ℝ → ℝ) (level : ℝ) (nf nb : Nat) (eigs : Nat → Nat → ℝ) : EigsFile where
  eigs := ⟨nf, nb, eigs⟩
  upper := ⟨nf, nb, fun f j => (confBounds ginv nb level (eigs f j)).2⟩
  lower := ⟨nf, nb, fun f j => (confBounds ginv nb level (eigs f j)).1⟩

/-- streaming.py:74, 254, 257: `_eigs` is `[n_freq, n_modes_save]`, and nothing in streaming.py touches `_eigs_c`. -/
noncomputable def streamEigsFile (c : Cfg) (nt : Nat) (out : SOut (kept c nt)) : EigsFile where
  eigs := ⟨nFreq c.nDft c.isreal c.full, kept c nt, fun f j => if h : j < kept c nt then out.eigs f ⟨j, h⟩ else 0⟩
  upper := (initBounds (nFreq c.nDft c.isreal c.full) (fitNb c nt)).1
  lower := (initBounds (nFreq c.nDft c.isreal c.full) (fitNb c nt)).2

/-! ### Attributes -/

/-- What can be done with an object; a call may raise after having set some of its attributes. -/
inductive Op
  /-- base.py:51-130 -/
  | construct
  /-- `fit` up to and with the attribute number `n` it sets -/
  | fit (n : Nat)
  /-- base.py:628-643 `compute_coeffs_op`; 642-643 are reached or not -/
  | coeffs (done : Bool)
  /-- base.py:646-658 `compute_reconstruction`, likewise -/
  | recons (done : Bool)

/-- base.py:51-130: attributes set by the constructor -/
def initAttrs : List String := ["_n_dft", "_dt", "_xdim", "_nv", "_overlap", "_mean_type", "_c_level", "_reuse_blocks", "_savefft", "_savefreq_disk",
  "_savefreq_disk2", "_fullspectrum", "_normalize_weights", "_normalize_data", "_n_modes_save", "_dtype", "_savedir", "_params", "_weights_tmp", "_comm",
  "_float", "_complex", "_rank", "_size", "_window", "_window_name", "_n_overlap"]

/-- base.py:393-555, standard.py / streaming.py and base.py:661-706: attributes set by a fit, in the order in which they are first set -/
def fitAttrs : List String := ["_reader", "_nx", "_dim", "_shape", "_xdim", "_xshape", "_nt", "_isrealx", "_n_blocks", "_weights", "_weights_name", "data", "_max_axis",
  "_lt_mean", "_n_modes_save", "_win_weight", "_window", "_freq", "_n_freq", "_xi2_upper", "_xi2_lower", "_eigs_c", "_savedir_sim", "_modes_dir",
  "_pb_size_f", "_pb_size_c", "_eigs", "_eigs_c_u", "_eigs_c_l", "_n_modes"]

/-- the attributes after an operation -/
def step (a : List String) : Op → List String
  | .construct => a ++ initAttrs
  | .fit n => a ++ fitAttrs.take n
  | .coeffs done => if done then a ++ ["_file_coeffs", "_coeffs_dir"] else a
  | .recons done => if done then a ++ ["_file_recons", "_coeffs_dir"] else a

/-- the attributes after a session -/
def session (ops : List Op) : List String := ops.foldl step []

/-- base.py:142-390: the documented properties and the attribute each returns -/
def getters : List (String × String) := [("savedir_sim", "_savedir_sim"), ("file_coeffs", "_file_coeffs"), ("file_dynamics", "_file_dynamics"), ("dim", "_dim"),
  ("shape", "_shape"), ("nt", "_nt"), ("comm", "_comm"), ("nx", "_nx"), ("nv", "_nv"), ("xdim", "_xdim"), ("xshape", "_xshape"), ("n_freq", "_n_freq"),
  ("freq_idx_lb", "_freq_idx_lb"), ("freq_idx_ub", "_freq_idx_ub"), ("freq", "_freq"), ("dt", "_dt"), ("n_dft", "_n_dft"), ("eigs", "_eigs"),
  ("n_blocks", "_n_blocks"), ("n_modes", "_n_modes"), ("n_modes_save", "_n_modes_save"), ("modes_dir", "_modes_dir"), ("weights", "_weights")]

/-- reading `obj.name` (base.py:142-390) -/
def read (a : List String) (name : String) : Except String Unit :=
  match getters.lookup name with
  | none => .error "AttributeError"
  | some at' => if at' ∈ a then .ok () else .error "AttributeError"

end Verif.Attr
