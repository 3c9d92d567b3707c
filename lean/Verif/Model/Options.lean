import Verif.Model.ArgpsModel

/-!
# Model of the configurations of the training scripts

`scripts/ARGPS/argps/configs` and `scripts/cpd-backflow/cpd_backflow/configs`: the programs that build a `ml_collections.ConfigDict`,
and the flags of the command line (`config_flags.DEFINE_config_file`, `scripts/ARGPS/argps/vmc.py` lines 23-25,
`scripts/cpd-backflow/cpd_backflow/vmc.py`).

Simplifications: nested dictionaries are one dictionary with dotted names; the types of the fields are not modelled (a flag has a value
of the type of the field); every field is kept in a cell (`FieldReference`), also the fields of which no reference is taken, which
cannot be observed.
-/

namespace GPSKet.Options

/-- Values of options: integers, and anything else as the text of the configuration. -/
inductive Val
  | int (i : ℤ)
  | text (s : String)
deriving DecidableEq

/-- `reference // k`, computed when the value is read. -/
def Val.floordiv (k : ℤ) : Val → Option Val
  | .int i => some (.int (i / k))
  | .text _ => none

/-- The statements of a configuration file and the flags of the command line. -/
inductive Stmt
  /-- `config.name = value` -/
  | assign (name : String) (v : Val)
  /-- `config.name = config.get_ref(source)` -/
  | ref (name source : String)
  /-- `config.name = config.get_ref(source) // k` -/
  | div (name source : String) (k : ℤ)
  /-- `--config.name=value` -/
  | flag (name : String) (v : Val)
deriving DecidableEq

/-- The option a statement is about. -/
def Stmt.name : Stmt → String
  | .assign n _ => n
  | .ref n _ => n
  | .div n _ _ => n
  | .flag n _ => n

/-- A cell (`FieldReference` of ml_collections): a value, or the quotient of another cell. -/
inductive Cell
  | val (v : Val)
  | div (source : ℕ) (k : ℤ)
deriving DecidableEq

/-- A `ConfigDict`: the cell of every field, and the cells. -/
structure Dict where
  fields : List (String × ℕ)
  cells : List Cell
deriving DecidableEq

/-- The cell of a field. -/
def Dict.addr (d : Dict) (n : String) : Option ℕ := d.fields.lookup n

/-- The value of a cell (`FieldReference.get`); the source of a quotient is an older cell. -/
def readCell (cells : List Cell) (a : ℕ) : Option Val :=
  match cells[a]? with
  | none => none
  | some (.val v) => some v
  | some (.div p k) => if _h : p < a then (readCell cells p).bind (Val.floordiv k) else none
termination_by a

/-- The value of an option, as `copy_and_resolve_references` reads it (`configs/common.py` lines 58-59, cpd-backflow 60-61). -/
def Dict.get (d : Dict) (n : String) : Option Val := (d.addr n).bind (readCell d.cells)

/-- One statement; `none` is an exception.  An assignment to an existing field sets the cell of the field (`FieldReference.set`), and
`get_ref` returns the cell of the source.  A reference is only ever assigned to a new field
(`scripts/ARGPS/argps/configs/heisenberg2d.py` lines 40-42, 52-53).  A flag for a field that does not exist is an error. -/
def Dict.step (d : Dict) : Stmt → Option Dict
  | .assign n v =>
    match d.addr n with
    | some a => some { d with cells := d.cells.set a (.val v) }
    | none => some ⟨(n, d.cells.length) :: d.fields, d.cells ++ [.val v]⟩
  | .ref n s =>
    match d.addr n, d.addr s with
    | none, some a => some { d with fields := (n, a) :: d.fields }
    | _, _ => none
  | .div n s k =>
    match d.addr n, d.addr s with
    | none, some a => some ⟨(n, d.cells.length) :: d.fields, d.cells ++ [.div a k]⟩
    | _, _ => none
  | .flag n v => (d.addr n).map fun a => { d with cells := d.cells.set a (.val v) }

/-- A list of statements, beginning with an empty `ConfigDict`. -/
def run (p : List Stmt) : Option Dict := p.foldlM Dict.step ⟨[], []⟩

/-- `placeholder(int)` and `placeholder(list)`. -/
def placeholder : Val := .text "None"

/-- `get_config` of `scripts/ARGPS/argps/configs/common.py` lines 9-35.  The empty sections are not fields here. -/
def argpsBase : List Stmt :=
  [.assign "max_steps" (.int 100), .assign "progress_every" (.int 10), .assign "checkpoint_every" (.int 10),
   .assign "system_name" placeholder, .assign "model_name" placeholder, .assign "sampler_name" placeholder,
   .assign "variational_state_name" (.text "MCState"), .assign "optimizer_name" (.text "SRRMSProp")]

/-- The text of a model name. -/
def nameText : ArgpsModel.Name → String
  | .GPS => "GPS"
  | .FilterGPS => "FilterGPS"
  | .ARGPS => "ARGPS"
  | .MaskedGPS => "MaskedGPS"
  | .ARFilterGPS => "ARFilterGPS"
  | .MaskedFilterGPS => "MaskedFilterGPS"

/-- `get_config` of `scripts/ARGPS/argps/configs/heisenberg2d.py` lines 6-62. -/
def heisenberg2d (model : ArgpsModel.Name) : List Stmt :=
  argpsBase ++
  [.assign "system_name" (.text "Heisenberg2d"), .assign "system.Lx" (.int 6), .assign "system.Ly" (.int 6),
   .assign "system.J1" (.text "1.0"), .assign "system.pbc" (.text "True"), .assign "system.sign_rule" (.text "True"),
   .assign "system.total_sz" (.int 0), .assign "model_name" (.text (nameText model)), .assign "model.M" (.int 1),
   .assign "model.dtype" (.text "real"), .assign "model.sigma" (.text "0.1"), .assign "model.symmetries" (.text "none"),
   .assign "variational_state.n_samples" (.int 4096)] ++
  (if model.hasAR then [] else [.div "variational_state.n_discard_per_chain" "variational_state.n_samples" 10]) ++
  [.assign "variational_state.chunk_size" placeholder, .assign "variational_state.seed" placeholder] ++
  (if model.hasAR then [.assign "sampler_name" (.text "ARDirectSampler")]
   else [.assign "sampler_name" (.text "MetropolisExchange"), .assign "sampler.n_chains_per_rank" (.int 1),
     .ref "sampler.n_sweeps" "system.Lx", .div "sampler.d_max" "system.Lx" 2]) ++
  [.assign "optimizer.learning_rate" (.text "0.01"), .assign "optimizer.mode" (.text "real"),
   .assign "optimizer.diag_shift" (.text "0.1"), .assign "optimizer.decay" (.text "0.9"), .assign "optimizer.eps" (.text "1e-8")]

/-- `get_config` of `scripts/ARGPS/argps/configs/hubbard1d.py` lines 5-37. -/
def hubbard1d : List Stmt :=
  argpsBase ++
  [.assign "system_name" (.text "Hubbard1d"), .assign "system.Lx" (.int 32), .assign "system.t" (.text "1.0"),
   .assign "system.U" (.text "0.0"), .assign "system.pbc" (.text "True"), .assign "model_name" (.text "ARFilterGPS"),
   .assign "model.M" (.int 64), .assign "model.dtype" (.text "real"), .assign "model.sigma" (.text "0.1"),
   .assign "model.symmetries" (.text "none"), .assign "variational_state.n_samples" (.int 4096),
   .assign "variational_state.chunk_size" placeholder, .assign "variational_state.seed" placeholder,
   .assign "sampler_name" (.text "ARDirectSampler"), .assign "optimizer.learning_rate" (.text "0.01"),
   .assign "optimizer.mode" (.text "real"), .assign "optimizer.diag_shift" (.text "0.1"), .assign "optimizer.decay" (.text "0.9"),
   .assign "optimizer.eps" (.text "1e-8")]

/-- `get_config` of `scripts/ARGPS/argps/configs/hydrogen.py` lines 32-87; the options are already split at the commas. -/
def hydrogen (geometry basis dtype : String) : Option (List Stmt) :=
  if geometry ≠ "chain" ∧ geometry ≠ "sheet" then none
  else if basis ≠ "canonical" ∧ basis ≠ "local" then none
  else if dtype ≠ "real" ∧ dtype ≠ "complex" then none
  else some (argpsBase ++
  [.assign "system_name" (.text ("H" ++ geometry)), .assign "system.n_atoms" (.int 16), .assign "system.distance" (.text "1.8"),
   .assign "system.basis_set" (.text "sto-6g"), .assign "system.basis" (.text basis), .assign "system.symmetry" (.text "True"),
   .assign "system.unit" (.text "Bohr"), .assign "system.molecule" placeholder, .assign "system.set_molecule" (.text geometry),
   .assign "model_name" (.text "ARGPS"), .assign "model.M" (.int 16), .assign "model.dtype" (.text dtype),
   .assign "model.sigma" (.text "0.1"), .assign "model.symmetries" (.text "none"),
   .assign "variational_state.n_samples" (.int 5000), .assign "variational_state.chunk_size" placeholder,
   .assign "variational_state.seed" placeholder, .assign "sampler_name" (.text "ARDirectSampler"),
   .assign "optimizer.learning_rate" (.text "0.04"), .assign "optimizer.mode" (.text dtype),
   .assign "optimizer.diag_shift" (.text "0.01"), .assign "optimizer.decay" (.text "0.9"), .assign "optimizer.eps" (.text "1e-8")])

/-- `get_config` of `scripts/cpd-backflow/cpd_backflow/configs/common.py` lines 9-36. -/
def backflowBase : List Stmt :=
  [.assign "total_steps" (.int 1000), .assign "progress_every" (.int 10), .assign "checkpoint_every" (.int 10),
   .assign "system_name" placeholder, .assign "model_name" (.text "CPDBackflow"), .assign "sampler_name" (.text "MetropolisHopping"),
   .assign "variational_state_name" (.text "MCState"), .assign "optimizer_name" (.text "SRRMSProp")]

/-- `get_config` of `scripts/cpd-backflow/cpd_backflow/configs/fermi_hubbard.py` lines 5-54. -/
def fermiHubbard : List Stmt :=
  backflowBase ++
  [.assign "total_steps" (.int 2000), .assign "system_name" (.text "FermiHubbard"), .assign "system.Lx" (.int 4),
   .assign "system.Ly" (.int 4), .assign "system.t" (.text "1.0"), .assign "system.U" (.text "8.0"),
   .assign "system.pbc" (.text "PBC-PBC"), .assign "system.n_elec" (.text "(7, 7)"), .assign "model.M" (.int 1),
   .assign "model.dtype" (.text "real"), .assign "model.init_fun" (.text "hf"), .assign "model.sigma" (.text "0.01"),
   .assign "model.restricted" (.text "False"), .assign "model.fixed_magnetization" (.text "False"),
   .assign "variational_state.n_samples" (.int 4096), .assign "variational_state.n_discard_per_chain" (.int 128),
   .assign "variational_state.chunk_size" placeholder, .assign "variational_state.seed" placeholder,
   .assign "sampler.hop_probability" (.text "1.0"), .assign "sampler.n_chains_per_rank" (.int 4), .assign "sampler.n_sweeps" (.int 16),
   .assign "optimizer.learning_rate" (.text "0.01"), .assign "optimizer.mode" (.text "real"),
   .assign "optimizer.diag_shift" (.text "0.1"), .assign "optimizer.decay" (.text "0.9"), .assign "optimizer.eps" (.text "1e-8"),
   .assign "descent_finishing.total_steps" (.int 400), .assign "descent_finishing.learning_rate" (.text "0.001"),
   .assign "evaluate.total_steps" (.int 50), .assign "evaluate.n_samples" (.int 65536), .assign "evaluate.chunk_size" placeholder]

/-- `get_config` of `scripts/cpd-backflow/cpd_backflow/configs/h2o.py` lines 5-53. -/
def h2o : List Stmt :=
  backflowBase ++
  [.assign "total_steps" (.int 5000), .assign "system_name" (.text "H2O"), .assign "system.basis" (.text "local-boys"),
   .assign "system.basis_set" (.text "6-31g"),
   .assign "system.molecule" (.text "[('H', (0., 0.795, -0.454)), ('H', (0., -0.795, -0.454)), ('O', (0., 0., 0.113))]"),
   .assign "system.symmetry" (.text "True"), .assign "system.unit" (.text "angstrom"), .assign "model.M" (.int 1),
   .assign "model.dtype" (.text "real"), .assign "model.init_fun" (.text "hf"), .assign "model.sigma" (.text "0.01"),
   .assign "model.restricted" (.text "False"), .assign "model.fixed_magnetization" (.text "True"),
   .assign "variational_state.n_samples" (.int 4096), .assign "variational_state.n_discard_per_chain" (.int 128),
   .assign "variational_state.chunk_size" placeholder, .assign "variational_state.seed" placeholder,
   .assign "sampler.hop_probability" (.text "1.0"), .assign "sampler.n_chains_per_rank" (.int 4), .assign "sampler.n_sweeps" (.int 10),
   .assign "optimizer.learning_rate" (.text "0.01"), .assign "optimizer.mode" (.text "real"),
   .assign "optimizer.diag_shift" (.text "0.1"), .assign "optimizer.decay" (.text "0.9"), .assign "optimizer.eps" (.text "1e-8"),
   .assign "descent_finishing.total_steps" (.int 1000), .assign "descent_finishing.learning_rate" (.text "0.001"),
   .assign "evaluate.total_steps" (.int 50), .assign "evaluate.n_samples" (.int 65536), .assign "evaluate.chunk_size" placeholder]

/-- `get_config` of `scripts/cpd-backflow/cpd_backflow/configs/hsheet.py` lines 21-73. -/
def hsheet : List Stmt :=
  backflowBase ++
  [.assign "total_steps" (.int 5000), .assign "system_name" (.text "Hsheet"), .assign "system.n_atoms" (.int 36),
   .assign "system.distance" (.text "1.0"), .assign "system.basis" (.text "local-boys"), .assign "system.basis_set" (.text "sto-6g"),
   .assign "system.molecule" placeholder, .assign "system.symmetry" (.text "True"), .assign "system.unit" (.text "angstrom"),
   .assign "system.set_molecule" (.text "sheet"), .assign "model.M" (.int 1), .assign "model.dtype" (.text "real"),
   .assign "model.init_fun" (.text "hf"), .assign "model.sigma" (.text "0.01"), .assign "model.restricted" (.text "False"),
   .assign "model.fixed_magnetization" (.text "True"), .assign "model.exchange_cutoff" placeholder,
   .assign "variational_state.n_samples" (.int 4096), .assign "variational_state.n_discard_per_chain" (.int 128),
   .assign "variational_state.chunk_size" placeholder, .assign "variational_state.seed" placeholder,
   .assign "sampler.hop_probability" (.text "1.0"), .assign "sampler.n_chains_per_rank" (.int 4), .assign "sampler.n_sweeps" (.int 36),
   .assign "optimizer_name" (.text "kernelSR"), .assign "optimizer.learning_rate" (.text "0.01"), .assign "optimizer.mode" (.text "real"),
   .assign "optimizer.diag_shift" (.text "0.1"), .assign "descent_finishing.total_steps" (.int 1000),
   .assign "descent_finishing.learning_rate" (.text "0.001"), .assign "evaluate.total_steps" (.int 50),
   .assign "evaluate.n_samples" (.int 16384), .assign "evaluate.chunk_size" (.int 1024)]

/-- The configurations of the two scripts. -/
inductive Shipped : List Stmt → Prop
  | heisenberg2d (model : ArgpsModel.Name) : Shipped (heisenberg2d model)
  | hubbard1d : Shipped hubbard1d
  | hydrogen (geometry basis dtype : String) (p : List Stmt) : hydrogen geometry basis dtype = some p → Shipped p
  | fermiHubbard : Shipped fermiHubbard
  | h2o : Shipped h2o
  | hsheet : Shipped hsheet

/-- The flags of a command line, in their order. -/
def flags (l : List (String × Val)) : List Stmt := l.map fun e => .flag e.1 e.2

end GPSKet.Options
