import Verif.Base.Err
import Mathlib.LinearAlgebra.Matrix.NonsingularInverse
import Mathlib.LinearAlgebra.Matrix.Kronecker
import Mathlib.LinearAlgebra.Matrix.SchurComplement
import Mathlib.Logic.Equiv.Fin.Basic
import Mathlib.Algebra.Order.Field.Basic
import Mathlib.Data.Fintype.Basic
import Mathlib.Data.Matrix.ColumnRowPartitioned

/-!
# Dynamically shaped 2-D arrays

`Arr K` is a numpy `ndarray` with `ndim == 2`, exact entries in `K`. Operations that numpy rejects
because of shapes return `Err.value` (numpy raises `ValueError`).
-/

namespace Harold

open Matrix

/-! ## Statically shaped building blocks -/

section Mat
variable {K : Type} {r r₁ r₂ c c₁ c₂ : ℕ}

/-- Horizontal concatenation (`np.hstack`, a row of `np.block`). -/
def hcat (A : Matrix (Fin r) (Fin c₁) K) (B : Matrix (Fin r) (Fin c₂) K) :
    Matrix (Fin r) (Fin (c₁ + c₂)) K :=
  (fromCols A B).submatrix id finSumFinEquiv.symm

/-- Vertical concatenation (`np.vstack`, a column of `np.block`). -/
def vcat (A : Matrix (Fin r₁) (Fin c) K) (B : Matrix (Fin r₂) (Fin c) K) :
    Matrix (Fin (r₁ + r₂)) (Fin c) K :=
  (fromRows A B).submatrix finSumFinEquiv.symm id

/-- `np.block([[A, B], [C, D]])`. -/
def blk (A : Matrix (Fin r₁) (Fin c₁) K) (B : Matrix (Fin r₁) (Fin c₂) K)
    (C : Matrix (Fin r₂) (Fin c₁) K) (D : Matrix (Fin r₂) (Fin c₂) K) :
    Matrix (Fin (r₁ + r₂)) (Fin (c₁ + c₂)) K :=
  (fromBlocks A B C D).submatrix finSumFinEquiv.symm finSumFinEquiv.symm

/-- `np.kron(A, B)`: entry `(i*r₂+k, j*c₂+l)` is `A i j * B k l`. -/
def kronM [Mul K] (A : Matrix (Fin r₁) (Fin c₁) K) (B : Matrix (Fin r₂) (Fin c₂) K) :
    Matrix (Fin (r₁ * r₂)) (Fin (c₁ * c₂)) K :=
  (kroneckerMap (· * ·) A B).submatrix finProdFinEquiv.symm finProdFinEquiv.symm

end Mat

/-! ## Dynamic shapes -/

/-- A 2-D numpy array of any shape. -/
structure Arr (K : Type) where
  /-- number of rows, `x.shape[0]` -/
  r : ℕ
  /-- number of columns, `x.shape[1]` -/
  c : ℕ
  /-- the entries -/
  m : Matrix (Fin r) (Fin c) K

namespace Arr
variable {K : Type}

/-- The array with the entries of a statically shaped matrix. -/
abbrev of {r c : ℕ} (M : Matrix (Fin r) (Fin c) K) : Arr K := ⟨r, c, M⟩

@[simp] theorem of_r {r c : ℕ} (M : Matrix (Fin r) (Fin c) K) : (of M).r = r := rfl
@[simp] theorem of_c {r c : ℕ} (M : Matrix (Fin r) (Fin c) K) : (of M).c = c := rfl
@[simp] theorem of_m {r c : ℕ} (M : Matrix (Fin r) (Fin c) K) : (of M).m = M := rfl

theorem eq_of (x : Arr K) : x = of x.m := rfl

theorem of_inj {r c : ℕ} {M N : Matrix (Fin r) (Fin c) K} : of M = of N ↔ M = N := by
  constructor
  · intro h
    simpa [of] using h
  · rintro rfl; rfl

/-- An array whose shape is known is a statically shaped matrix. -/
theorem exists_of {x : Arr K} {p m : ℕ} (hp : x.r = p) (hm : x.c = m) :
    ∃ M : Matrix (Fin p) (Fin m) K, x = of M := by
  subst hp; subst hm; exact ⟨x.m, rfl⟩

theorem ext_cast {x y : Arr K} (hr : x.r = y.r) (hc : x.c = y.c)
    (h : ∀ i j, x.m i j = y.m (Fin.cast hr i) (Fin.cast hc j)) : x = y := by
  obtain ⟨r, c, m⟩ := x
  obtain ⟨r', c', m'⟩ := y
  simp only at hr hc
  subst hr; subst hc
  congr 1
  ext i j
  exact h i j

/-- `x.shape`. -/
def shape (x : Arr K) : ℕ × ℕ := (x.r, x.c)

/-- `np.zeros((r, c))`. -/
def zeros [Zero K] (r c : ℕ) : Arr K := of (0 : Matrix (Fin r) (Fin c) K)

/-- `np.empty((0, 0))`. -/
def empty : Arr K := ⟨0, 0, fun i => i.elim0⟩

/-- `np.ones((r, c))`. -/
def ones [One K] (r c : ℕ) : Arr K := of (Matrix.of fun (_ : Fin r) (_ : Fin c) => (1 : K))

/-- `np.eye(n)`. -/
def eye [Zero K] [One K] (n : ℕ) : Arr K := of (1 : Matrix (Fin n) (Fin n) K)

/-- A `1 × 1` array holding a scalar. -/
def scalar (k : K) : Arr K := of (Matrix.of fun (_ _ : Fin 1) => k)

/-- `x.T`. -/
def T (x : Arr K) : Arr K := of x.mᵀ

/-- `-x`. -/
def neg [Neg K] (x : Arr K) : Arr K := of (-x.m)

/-- `k * x` for a scalar `k`. -/
def smul [Mul K] (k : K) (x : Arr K) : Arr K := of (Matrix.of fun i j => k * x.m i j)

/-- `x + k` for a scalar `k` (adds to every entry). -/
def addScalar [Add K] (x : Arr K) (k : K) : Arr K := of (Matrix.of fun i j => x.m i j + k)

/-- `np.any(x)`. -/
def any [Zero K] [DecidableEq K] (x : Arr K) : Bool := 
  (List.finRange x.r).any fun i => (List.finRange x.c).any fun j => decide (x.m i j ≠ 0)

theorem any_iff [Zero K] [DecidableEq K] (x : Arr K) : x.any = true ↔ ∃ i j, x.m i j ≠ 0 := by
  simp [any]

/-- `x @ y` for 2-D arrays. -/
def matmul [NonUnitalNonAssocSemiring K] (x y : Arr K) : Res (Arr K) :=
  if h : x.c = y.r then .ok (of (x.m * (y.m.submatrix (Fin.cast h) id))) else .error .value

/-- One dimension of numpy's broadcasting rule. -/
def bdim (a b : ℕ) : Option ℕ :=
  if a = b then some a else if a = 1 then some b else if b = 1 then some a else none

/-- Read entry `(i, j)`; a dimension of length one is read at index zero (broadcasting). -/
def bget [Zero K] (x : Arr K) (i j : ℕ) : K :=
  let i' := if x.r = 1 then 0 else i
  let j' := if x.c = 1 then 0 else j
  if h : i' < x.r ∧ j' < x.c then x.m ⟨i', h.1⟩ ⟨j', h.2⟩ else 0

/-- An elementwise binary operation with numpy broadcasting. -/
def bop [Zero K] (f : K → K → K) (x y : Arr K) : Res (Arr K) :=
  match bdim x.r y.r, bdim x.c y.c with
  | some r, some c =>
    .ok (of (r := r) (c := c) (Matrix.of fun i j => f (x.bget i j) (y.bget i j)))
  | _, _ => .error .value

/-- `x + y` with numpy broadcasting. -/
def add [Zero K] [Add K] (x y : Arr K) : Res (Arr K) := bop (· + ·) x y

/-- `x - y` with numpy broadcasting. -/
def sub [Zero K] [Sub K] (x y : Arr K) : Res (Arr K) := bop (· - ·) x y

/-- `x * y` (elementwise) with numpy broadcasting. -/
def mul [Zero K] [Mul K] (x y : Arr K) : Res (Arr K) := bop (· * ·) x y

/-- `np.hstack((x, y))`. -/
def hstack (x y : Arr K) : Res (Arr K) :=
  if h : x.r = y.r then .ok (of (hcat x.m (y.m.submatrix (Fin.cast h) id)))
  else .error .value

/-- `np.vstack((x, y))`. -/
def vstack (x y : Arr K) : Res (Arr K) :=
  if h : x.c = y.c then .ok (of (vcat x.m (y.m.submatrix id (Fin.cast h))))
  else .error .value

/-- `scipy.linalg.block_diag(x, y)`. -/
def blockDiag [Zero K] (x y : Arr K) : Arr K := of (blk x.m 0 0 y.m)

/-- `np.kron(x, y)`. -/
def kron [Mul K] (x y : Arr K) : Arr K := of (kronM x.m y.m)

/-- `scipy.linalg.block_diag(*[x]*k)` for `k ≥ 1`: `k` copies of `x` on the diagonal. -/
def repDiag [Zero K] [One K] [Mul K] (k : ℕ) (x : Arr K) : Arr K := kron (eye k) x

/-- `scipy.linalg.solve(x, y)`: raises `ValueError` on shape mismatch and `LinAlgError` on a
singular matrix (exact arithmetic). -/
noncomputable def solve [Field K] [DecidableEq K] (x y : Arr K) : Res (Arr K) :=
  if h : x.r = x.c then
    if h' : x.r = y.r then
      let M : Matrix (Fin x.r) (Fin x.r) K := x.m.submatrix id (Fin.cast h)
      if M.det = 0 then .error .linAlg
      else .ok (of (M⁻¹ * y.m.submatrix (Fin.cast h') id))
    else .error .value
  else .error .value

/-! ### Behaviour on statically shaped arguments -/

section typed
variable {r r₁ r₂ c c₁ c₂ n : ℕ}

@[simp] theorem matmul_of [NonUnitalNonAssocSemiring K] (A : Matrix (Fin r) (Fin n) K)
    (B : Matrix (Fin n) (Fin c) K) : matmul (of A) (of B) = .ok (of (A * B)) := by
  simp [matmul]

theorem matmul_error [NonUnitalNonAssocSemiring K] {x y : Arr K} (h : x.c ≠ y.r) :
    matmul x y = .error .value := by simp [matmul, h]

@[simp] theorem bdim_self (a : ℕ) : bdim a a = some a := by simp [bdim]

theorem bget_of [Zero K] (A : Matrix (Fin r) (Fin c) K) (i : Fin r) (j : Fin c) :
    (of A).bget i j = A i j := by
  have hi := i.isLt
  have hj := j.isLt
  have h1 : (if r = 1 then 0 else (i : ℕ)) = i := by split_ifs <;> omega
  have h2 : (if c = 1 then 0 else (j : ℕ)) = j := by split_ifs <;> omega
  simp only [bget]
  rw [dif_pos (by rw [h1, h2]; exact ⟨hi, hj⟩)]
  congr 1 <;> exact Fin.ext (by assumption)

@[simp] theorem add_of [AddZeroClass K] (A B : Matrix (Fin r) (Fin c) K) :
    add (of A) (of B) = .ok (of (A + B)) := by
  simp only [add, bop, bdim_self]
  congr 2
  ext i j
  simp [bget_of]

@[simp] theorem sub_of [AddGroup K] (A B : Matrix (Fin r) (Fin c) K) :
    sub (of A) (of B) = .ok (of (A - B)) := by
  simp only [sub, bop, bdim_self]
  congr 2
  ext i j
  simp [bget_of]

@[simp] theorem hstack_of (A : Matrix (Fin r) (Fin c₁) K) (B : Matrix (Fin r) (Fin c₂) K) :
    hstack (of A) (of B) = .ok (of (hcat A B)) := by
  simp [hstack]

@[simp] theorem vstack_of (A : Matrix (Fin r₁) (Fin c) K) (B : Matrix (Fin r₂) (Fin c) K) :
    vstack (of A) (of B) = .ok (of (vcat A B)) := by
  simp [vstack]

@[simp] theorem solve_of [Field K] [DecidableEq K] (A : Matrix (Fin n) (Fin n) K)
    (B : Matrix (Fin n) (Fin c) K) :
    solve (of A) (of B) = if A.det = 0 then .error .linAlg else .ok (of (A⁻¹ * B)) := by
  simp [solve]

@[simp] theorem neg_of [Neg K] (A : Matrix (Fin r) (Fin c) K) : neg (of A) = of (-A) := rfl
@[simp] theorem T_of (A : Matrix (Fin r) (Fin c) K) : T (of A) = of Aᵀ := rfl
@[simp] theorem smul_of [Mul K] (k : K) (A : Matrix (Fin r) (Fin c) K) :
    smul k (of A) = of (k • A) := rfl
@[simp] theorem blockDiag_of [Zero K] (A : Matrix (Fin r₁) (Fin c₁) K)
    (B : Matrix (Fin r₂) (Fin c₂) K) : blockDiag (of A) (of B) = of (blk A 0 0 B) := rfl
@[simp] theorem kron_of [Mul K] (A : Matrix (Fin r₁) (Fin c₁) K)
    (B : Matrix (Fin r₂) (Fin c₂) K) : kron (of A) (of B) = of (kronM A B) := rfl

end typed

end Arr

end Harold
