/-!
Model of the files in which the scripts keep the orbital basis and the integrals of a molecule:
`scripts/GPS_for_ab_initio/H2O.py` lines 45-114, `H4x4x4.py` lines 43-108, `H50_1D.py` lines 34-86 and
`get_molecular_system` in `scripts/cpd-backflow/cpd_backflow/systems.py` lines 62-187, as programs that can be killed
between any two operations on files and started again in the same directory.

Simplifications:
* opening a file for writing truncates it at once, its content reaches the disk when it is closed; loading a truncated
  file raises an exception;
* the numerical work of PySCF is a parameter: the basis that a process computes (`fresh`; the localisation depends on
  its starting point, so two processes may get different ones), and the integrals of a molecule as functions of the basis;
* only rank 0 touches files; the broadcast of its arrays is modelled separately (`bcastSlices`).
-/

namespace GPSKet.Integrals

variable {B H₁ H₂ O X : Type}

/-- What PySCF computes for a molecule, as functions of the basis: whether it is orthonormal (`C^T S C` close to the
identity), the one- and two-electron integrals (with small entries removed, if the configuration says so), the occupied
Hartree-Fock orbitals and the exchange matrix.  `H2O.py` lines 90-99, `systems.py` lines 138-157 and 164-170. -/
structure Molecule (B H₁ H₂ O X : Type) where
  orthonormal : B → Bool
  core : B → H₁
  eri : B → H₂
  orbitals : B → O
  exchange : B → X

/-- One start of a script: its molecule, the basis that it would compute and whether it needs the exchange matrix. -/
structure Args (B H₁ H₂ O X : Type) where
  mol : Molecule B H₁ H₂ O X
  fresh : B
  store : Bool

/-- The files `basis.npy`, `h1.npy`, `h2.npy`, `hf_orbitals.npy` and `exchange.npy` (`none`: absent, `some none`:
truncated). -/
structure Disk (B H₁ H₂ O X : Type) where
  basis : Option (Option B)
  h1 : Option (Option H₁)
  h2 : Option (Option H₂)
  hf : Option (Option O)
  exch : Option (Option X)

/-- An empty directory. -/
def Disk.empty : Disk B H₁ H₂ O X := ⟨none, none, none, none, none⟩

/-- The three ways in which the files are used. -/
inductive Script where
  /-- `H2O.py` and `H4x4x4.py`. -/
  | cached
  /-- `H50_1D.py`. -/
  | basisOnly
  /-- `get_molecular_system` of the backflow scripts. -/
  | allOrNone

/-- Points of the programs between two operations on files. -/
inductive Proc (B H₁ H₂ : Type) where
  /-- The mean-field calculation is done. -/
  | boot
  /-- `basis.npy` is open and empty. -/
  | basisOpen (b : B)
  /-- The basis is known and stored. -/
  | haveBasis (b : B)
  /-- `h1.npy` is open and empty. -/
  | h1Open (b : B)
  /-- Before `h2.npy` is opened. -/
  | h1Done (b : B)
  /-- `h2.npy` is open and empty. -/
  | h2Open (b : B)
  /-- Before `hf_orbitals.npy` is opened. -/
  | h2Done (b : B)
  /-- `hf_orbitals.npy` is open and empty. -/
  | hfOpen (b : B)
  /-- Before the exchange matrix is stored. -/
  | stored (b : B) (h1 : H₁) (h2 : H₂)
  /-- `exchange.npy` is open and empty. -/
  | exchOpen (b : B) (h1 : H₁) (h2 : H₂)
  /-- The Hamiltonian is set up with these integrals in this basis. -/
  | ready (b : B) (h1 : H₁) (h2 : H₂)
  /-- An exception ended the process. -/
  | raised

/-- `np.load` of two files. -/
def load2 {α β γ : Type} (f : Option (Option α)) (g : Option (Option β)) (k : α → β → γ) : Option γ :=
  match f, g with
  | some (some a), some (some b) => some (k a b)
  | _, _ => none

/-- The first operation of a process on files.  `H2O.py` lines 66-88, `H4x4x4.py` lines 67-77, `H50_1D.py` lines 55-64,
`systems.py` lines 104-139. -/
def first (s : Script) (a : Args B H₁ H₂ O X) (k : Disk B H₁ H₂ O X) : Disk B H₁ H₂ O X × Proc B H₁ H₂ :=
  match s with
  | .allOrNone =>
    if k.basis.isSome && k.h1.isSome && k.h2.isSome && k.hf.isSome then
      match k.basis, load2 k.h1 k.h2 Prod.mk, k.hf with
      | some (some b), some (h1, h2), some (some _) => (k, .stored b h1 h2)
      | _, _, _ => (k, .raised)
    else if a.mol.orthonormal a.fresh then ({ k with basis := some none }, .basisOpen a.fresh)
    else (k, .raised)
  | _ =>
    match k.basis with
    | some (some b) => (k, .haveBasis b)
    | some none => (k, .raised)
    | none => ({ k with basis := some none }, .basisOpen a.fresh)

/-- What follows once the basis is known.  `H2O.py` lines 89-102, `H4x4x4.py` lines 78-91, `H50_1D.py` lines 65-74,
`systems.py` line 157. -/
def second (s : Script) (a : Args B H₁ H₂ O X) (k : Disk B H₁ H₂ O X) (b : B) : Disk B H₁ H₂ O X × Proc B H₁ H₂ :=
  match s with
  | .cached =>
    if k.h1.isSome && k.h2.isSome then
      match load2 k.h1 k.h2 Prod.mk with
      | some (h1, h2) => (k, .ready b h1 h2)
      | none => (k, .raised)
    else if a.mol.orthonormal b then ({ k with h1 := some none }, .h1Open b)
    else (k, .raised)
  | .basisOnly => if a.mol.orthonormal b then (k, .ready b (a.mol.core b) (a.mol.eri b)) else (k, .raised)
  | .allOrNone => ({ k with h1 := some none }, .h1Open b)

/-- The program up to its next operation on files (same lines; the exchange matrix: `systems.py` lines 161-171). -/
def exec (s : Script) (a : Args B H₁ H₂ O X) (k : Disk B H₁ H₂ O X) : Proc B H₁ H₂ → Disk B H₁ H₂ O X × Proc B H₁ H₂
  | .boot => first s a k
  | .basisOpen b => ({ k with basis := some (some b) }, .haveBasis b)
  | .haveBasis b => second s a k b
  | .h1Open b => ({ k with h1 := some (some (a.mol.core b)) }, .h1Done b)
  | .h1Done b => ({ k with h2 := some none }, .h2Open b)
  | .h2Open b =>
    ({ k with h2 := some (some (a.mol.eri b)) },
      match s with
      | .allOrNone => .h2Done b
      | _ => .ready b (a.mol.core b) (a.mol.eri b))
  | .h2Done b => ({ k with hf := some none }, .hfOpen b)
  | .hfOpen b => ({ k with hf := some (some (a.mol.orbitals b)) }, .stored b (a.mol.core b) (a.mol.eri b))
  | .stored b h1 h2 =>
    if a.store && k.exch.isNone then ({ k with exch := some none }, .exchOpen b h1 h2) else (k, .ready b h1 h2)
  | .exchOpen b h1 h2 => ({ k with exch := some (some (a.mol.exchange b)) }, .ready b h1 h2)
  | .ready b h1 h2 => (k, .ready b h1 h2)
  | .raised => (k, .raised)

/-- What a process that is set up calculates with (a record for the theorems; the program does not keep it). -/
def result : Proc B H₁ H₂ → List (B × H₁ × H₂)
  | .ready b h1 h2 => [(b, h1, h2)]
  | _ => []

/-- The histories of a directory: starting from an empty one, processes that `Allowed` admits are started one after the
other; each does any number of operations and is then ended at a point that `Killed` allows.  `rs` lists what the ended
processes calculated with. -/
inductive Reach (s : Script) (Allowed : Args B H₁ H₂ O X → Prop) (Killed : Proc B H₁ H₂ → Prop) :
    List (B × H₁ × H₂) → Disk B H₁ H₂ O X → Option (Args B H₁ H₂ O X × Proc B H₁ H₂) → Prop
  | empty : Reach s Allowed Killed [] Disk.empty none
  | start {rs k} (a : Args B H₁ H₂ O X) : Reach s Allowed Killed rs k none → Allowed a →
      Reach s Allowed Killed rs k (some (a, .boot))
  | run {rs k a p} : Reach s Allowed Killed rs k (some (a, p)) →
      Reach s Allowed Killed rs (exec s a k p).1 (some (a, (exec s a k p).2))
  | stop {rs k a p} : Reach s Allowed Killed rs k (some (a, p)) → Killed p →
      Reach s Allowed Killed (rs ++ result p) k none

/-! ## The broadcast of the integrals -/

/-- The buffers of one rank: `h2` and `h2_slice`. -/
structure Rank (α : Type) where
  h2 : Nat → Nat → Nat → Nat → α
  slice : Nat → Nat → α

/-- One pass through the loop: `np.copyto(h2_slice, h2[i, j])`, `Bcast(h2_slice, root=0)` and
`np.copyto(h2[i, j], h2_slice)` on all ranks.  `H2O.py` lines 108-112, `H4x4x4.py` lines 98-103, `H50_1D.py` lines 81-86. -/
def bcastSlice {α : Type} (ranks : Nat → Rank α) (ij : Nat × Nat) : Nat → Rank α :=
  let copied := fun r => { ranks r with slice := (ranks r).h2 ij.1 ij.2 }
  let sent := fun r => { copied r with slice := (copied 0).slice }
  fun r => { sent r with h2 := fun i j => if i = ij.1 ∧ j = ij.2 then (sent r).slice else (sent r).h2 i j }

/-- The two loops over the first indices (same lines). -/
def bcastSlices {α : Type} (n₀ n₁ : Nat) (ranks : Nat → Rank α) : Nat → Rank α :=
  ((List.range n₀).flatMap fun i => (List.range n₁).map fun j => (i, j)).foldl bcastSlice ranks

end GPSKet.Integrals
