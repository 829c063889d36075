import Verif.Blase.Queue
import Mathlib.Data.Matrix.Mul
import Mathlib.Algebra.BigOperators.Fin
/-!
Property C85, the whole way of a call: the argument block that `Dgemm` and `Dgemv` fill (blase/blas.go), the number by which the C side picks the function (fn.go,
work.h), and the call of CBLAS (work.c).

Memory is a function from addresses, counted in numbers of 64 bits, to reals. That the block has the same layout in Go and in C (fn.go 11-41, work.h 144-168) and that the
memory behind the addresses, which are kept as integers, is still there when the call is run, is assumed. CBLAS is assumed to do what it says: the product is
computed from the memory as it is before the call, and a call with an argument that CBLAS does not know, or with a leading dimension that is too small, writes nothing.
-/
set_option autoImplicit false
namespace Verif.Blase

/-- The functions numbered in fn.go 46-183 (without their prefix `fn_`). -/
def goFns : List String :=
  ["undefined", "cblas_cdotu_sub", "cblas_cdotc_sub", "cblas_zdotu_sub", "cblas_zdotc_sub", "cblas_sswap", "cblas_scopy", "cblas_saxpy",
   "catlas_saxpby", "cblas_dswap", "cblas_dcopy", "cblas_daxpy", "catlas_daxpby", "cblas_cswap", "cblas_ccopy", "cblas_caxpy", "catlas_caxpby",
   "cblas_zswap", "cblas_zcopy", "cblas_zaxpy", "catlas_zaxpby", "cblas_srotg", "cblas_srotmg", "cblas_srot", "cblas_srotm", "cblas_drotg",
   "cblas_drotmg", "cblas_drot", "cblas_drotm", "cblas_sscal", "cblas_dscal", "cblas_cscal", "cblas_zscal", "cblas_csscal", "cblas_zdscal",
   "cblas_crotg", "cblas_zrotg", "cblas_csrot", "cblas_zdrot", "cblas_sgemv", "cblas_sgbmv", "cblas_strmv", "cblas_stbmv", "cblas_stpmv",
   "cblas_strsv", "cblas_stbsv", "cblas_stpsv", "cblas_dgemv", "cblas_dgbmv", "cblas_dtrmv", "cblas_dtbmv", "cblas_dtpmv", "cblas_dtrsv",
   "cblas_dtbsv", "cblas_dtpsv", "cblas_cgemv", "cblas_cgbmv", "cblas_ctrmv", "cblas_ctbmv", "cblas_ctpmv", "cblas_ctrsv", "cblas_ctbsv",
   "cblas_ctpsv", "cblas_zgemv", "cblas_zgbmv", "cblas_ztrmv", "cblas_ztbmv", "cblas_ztpmv", "cblas_ztrsv", "cblas_ztbsv", "cblas_ztpsv",
   "cblas_ssymv", "cblas_ssbmv", "cblas_sspmv", "cblas_sger", "cblas_ssyr", "cblas_sspr", "cblas_ssyr2", "cblas_sspr2", "cblas_dsymv", "cblas_dsbmv",
   "cblas_dspmv", "cblas_dger", "cblas_dsyr", "cblas_dspr", "cblas_dsyr2", "cblas_dspr2", "cblas_chemv", "cblas_chbmv", "cblas_chpmv", "cblas_cgeru",
   "cblas_cgerc", "cblas_cher", "cblas_chpr", "cblas_cher2", "cblas_chpr2", "cblas_zhemv", "cblas_zhbmv", "cblas_zhpmv", "cblas_zgeru",
   "cblas_zgerc", "cblas_zher", "cblas_zhpr", "cblas_zher2", "cblas_zhpr2", "cblas_sgemm", "cblas_ssymm", "cblas_ssyrk", "cblas_ssyr2k",
   "cblas_strmm", "cblas_strsm", "cblas_dgemm", "cblas_dsymm", "cblas_dsyrk", "cblas_dsyr2k", "cblas_dtrmm", "cblas_dtrsm", "cblas_cgemm",
   "cblas_csymm", "cblas_csyrk", "cblas_csyr2k", "cblas_ctrmm", "cblas_ctrsm", "cblas_zgemm", "cblas_zsymm", "cblas_zsyrk", "cblas_zsyr2k",
   "cblas_ztrmm", "cblas_ztrsm", "cblas_chemm", "cblas_cherk", "cblas_cher2k", "cblas_zhemm", "cblas_zherk", "cblas_zher2k"]

/-- The functions numbered in work.h 5-142. -/
def cFns : List String :=
  ["undefined", "cblas_cdotu_sub", "cblas_cdotc_sub", "cblas_zdotu_sub", "cblas_zdotc_sub", "cblas_sswap", "cblas_scopy", "cblas_saxpy",
   "catlas_saxpby", "cblas_dswap", "cblas_dcopy", "cblas_daxpy", "catlas_daxpby", "cblas_cswap", "cblas_ccopy", "cblas_caxpy", "catlas_caxpby",
   "cblas_zswap", "cblas_zcopy", "cblas_zaxpy", "catlas_zaxpby", "cblas_srotg", "cblas_srotmg", "cblas_srot", "cblas_srotm", "cblas_drotg",
   "cblas_drotmg", "cblas_drot", "cblas_drotm", "cblas_sscal", "cblas_dscal", "cblas_cscal", "cblas_zscal", "cblas_csscal", "cblas_zdscal",
   "cblas_crotg", "cblas_zrotg", "cblas_csrot", "cblas_zdrot", "cblas_sgemv", "cblas_sgbmv", "cblas_strmv", "cblas_stbmv", "cblas_stpmv",
   "cblas_strsv", "cblas_stbsv", "cblas_stpsv", "cblas_dgemv", "cblas_dgbmv", "cblas_dtrmv", "cblas_dtbmv", "cblas_dtpmv", "cblas_dtrsv",
   "cblas_dtbsv", "cblas_dtpsv", "cblas_cgemv", "cblas_cgbmv", "cblas_ctrmv", "cblas_ctbmv", "cblas_ctpmv", "cblas_ctrsv", "cblas_ctbsv",
   "cblas_ctpsv", "cblas_zgemv", "cblas_zgbmv", "cblas_ztrmv", "cblas_ztbmv", "cblas_ztpmv", "cblas_ztrsv", "cblas_ztbsv", "cblas_ztpsv",
   "cblas_ssymv", "cblas_ssbmv", "cblas_sspmv", "cblas_sger", "cblas_ssyr", "cblas_sspr", "cblas_ssyr2", "cblas_sspr2", "cblas_dsymv", "cblas_dsbmv",
   "cblas_dspmv", "cblas_dger", "cblas_dsyr", "cblas_dspr", "cblas_dsyr2", "cblas_dspr2", "cblas_chemv", "cblas_chbmv", "cblas_chpmv", "cblas_cgeru",
   "cblas_cgerc", "cblas_cher", "cblas_chpr", "cblas_cher2", "cblas_chpr2", "cblas_zhemv", "cblas_zhbmv", "cblas_zhpmv", "cblas_zgeru",
   "cblas_zgerc", "cblas_zher", "cblas_zhpr", "cblas_zher2", "cblas_zhpr2", "cblas_sgemm", "cblas_ssymm", "cblas_ssyrk", "cblas_ssyr2k",
   "cblas_strmm", "cblas_strsm", "cblas_dgemm", "cblas_dsymm", "cblas_dsyrk", "cblas_dsyr2k", "cblas_dtrmm", "cblas_dtrsm", "cblas_cgemm",
   "cblas_csymm", "cblas_csyrk", "cblas_csyr2k", "cblas_ctrmm", "cblas_ctrsm", "cblas_zgemm", "cblas_zsymm", "cblas_zsyrk", "cblas_zsyr2k",
   "cblas_ztrmm", "cblas_ztrsm", "cblas_chemm", "cblas_cherk", "cblas_cher2k", "cblas_zhemm", "cblas_zherk", "cblas_zher2k"]

/-- The number of a function on the Go side. -/
def fnNumber (s : String) : Nat := goFns.idxOf s

noncomputable section
open Finset Matrix

/-- The memory of the process, one real for each address. -/
abbrev Mem := Int → ℝ

/-- The argument block of a queued call, fn.go 11-38. -/
structure Block where
  fn : Nat
  order : Nat
  tA : Nat
  tB : Nat
  a0 : Int
  a1 : Int
  a2 : Int
  i0 : Int
  i1 : Int
  i2 : Int
  i3 : Int
  i4 : Int
  i5 : Int
  d0 : ℝ
  d1 : ℝ

/-- `C.int`: the number modulo 2^32, with sign. -/
def cint (n : Int) : Int := (n + 2147483648) % 4294967296 - 2147483648

/-- `Dgemm`, blas.go 50-67. The transpositions are those of gonum, whose numbers are `code`; `a`, `b`, `c` are the addresses of the first elements. -/
def dgemmBlock (code : Bool → Nat) (tA tB : Bool) (m n k : Int) (α : ℝ) (a lda b ldb : Int) (β : ℝ) (c ldc : Int) : Block :=
  { fn := fnNumber "cblas_dgemm", order := 101, tA := code tA, tB := code tB, i0 := cint m, i1 := cint n, i2 := cint k, d0 := α, a0 := a, i3 := cint lda,
    a1 := b, i4 := cint ldb, d1 := β, a2 := c, i5 := cint ldc }

/-- `Dgemv`, blas.go 72-87: the number of rows is written twice. -/
def dgemvBlock (code : Bool → Nat) (tA : Bool) (m _n : Int) (α : ℝ) (a lda x incX : Int) (β : ℝ) (y incY : Int) : Block :=
  { fn := fnNumber "cblas_dgemv", order := 101, tA := code tA, tB := 0, i0 := cint m, i1 := cint m, i2 := cint lda, d0 := α, a0 := a, i3 := cint incX,
    a1 := x, i4 := cint incY, d1 := β, a2 := y, i5 := 0 }

/-- The transpositions of cblas.h 10-15; for reals the conjugate transpose is the transpose. -/
def cblasTrans (t : Nat) : Option Bool := if t = 111 then some false else if t = 112 ∨ t = 113 then some true else none

/-- An element of a matrix stored by rows, or of its transpose. -/
def elem (M : Mem) (t : Bool) (p ld : Int) (i j : Nat) : ℝ := if t then M (p + j * ld + i) else M (p + i * ld + j)

/-- `cblas_dgemm` (assumed), in row-major order, which is the only one used. -/
def cblasDgemm (order tA tB : Nat) (m n k : Int) (α : ℝ) (a lda b ldb : Int) (β : ℝ) (c ldc : Int) (M : Mem) : Mem :=
  match cblasTrans tA, cblasTrans tB with
  | some ta, some tb =>
    if order = 101 ∧ (max 1 (if ta then m else k)) ≤ lda ∧ (max 1 (if tb then k else n)) ≤ ldb ∧ max 1 n ≤ ldc then fun p =>
      if 0 ≤ p - c ∧ (p - c) / ldc < m ∧ (p - c) % ldc < n then
        α * ∑ l ∈ range k.toNat, elem M ta a lda ((p - c) / ldc).toNat l * elem M tb b ldb l ((p - c) % ldc).toNat + β * M p
      else M p
    else M
  | _, _ => M

/-- `cblas_dgemv` (assumed), in row-major order with positive steps. -/
def cblasDgemv (order tA : Nat) (m n : Int) (α : ℝ) (a lda x incX : Int) (β : ℝ) (y incY : Int) (M : Mem) : Mem :=
  match cblasTrans tA with
  | some ta =>
    if order = 101 ∧ max 1 n ≤ lda ∧ 0 < incX ∧ 0 < incY then fun p =>
      if 0 ≤ p - y ∧ (p - y) % incY = 0 ∧ (p - y) / incY < (if ta then n else m) then
        α * ∑ l ∈ range (if ta then m else n).toNat, elem M ta a lda ((p - y) / incY).toNat l * M (x + l * incX) + β * M p
      else M p
    else M
  | none => M

/-- `processFn`, work.c 8-: the function whose number is in the block. All but two functions end the program (`none`). -/
def processFn (g : Block) (M : Mem) : Option Mem :=
  if cFns[g.fn]? = some "cblas_dgemv" then some (cblasDgemv g.order g.tA g.i0 g.i1 g.d0 g.a0 g.i2 g.a1 g.i3 g.d1 g.a2 g.i4 M)
  else if cFns[g.fn]? = some "cblas_dgemm" then some (cblasDgemm g.order g.tA g.tB g.i0 g.i1 g.i2 g.d0 g.a0 g.i3 g.a1 g.i4 g.d1 g.a2 g.i5 M)
  else none

/-- The numbers are the same on both sides. -/
theorem numbers_agree : goFns = cFns := by decide

theorem number_gemm : cFns[fnNumber "cblas_dgemm"]? = some "cblas_dgemm" := by decide +kernel

theorem number_gemv : cFns[fnNumber "cblas_dgemv"]? = some "cblas_dgemv" := by decide +kernel

theorem cint_id {n : Int} (h0 : 0 ≤ n) (h : n < 2147483648) : cint n = n := by
  unfold cint; omega

/-! ### What is asked for -/

/-- The matrix lies in memory by rows, `ld` apart. -/
def Holds (M : Mem) (p ld : Int) {m n : Nat} (A : Matrix (Fin m) (Fin n) ℝ) : Prop := ∀ (i : Fin m) (j : Fin n), M (p + (i : Nat) * ld + (j : Nat)) = A i j

/-- The matrix, or its transpose, lies in memory. -/
def HoldsOp (t : Bool) (M : Mem) (p ld : Int) {m n : Nat} (A : Matrix (Fin m) (Fin n) ℝ) : Prop := if t then Holds M p ld Aᵀ else Holds M p ld A

/-- The vector lies in memory, `inc` apart. -/
def HoldsVec (M : Mem) (p inc : Int) {n : Nat} (x : Fin n → ℝ) : Prop := ∀ i : Fin n, M (p + (i : Nat) * inc) = x i

/-- `M'` is `M` with `α·A·B + β·C` in place of `C`. -/
def IsProduct (M M' : Mem) (c ldc : Int) {m n k : Nat} (α β : ℝ) (A : Matrix (Fin m) (Fin k) ℝ) (B : Matrix (Fin k) (Fin n) ℝ) (C : Matrix (Fin m) (Fin n) ℝ) : Prop :=
  Holds M' c ldc (α • (A * B) + β • C) ∧ ∀ p, (∀ (i : Fin m) (j : Fin n), p ≠ c + (i : Nat) * ldc + (j : Nat)) → M' p = M p

/-- The sizes are those of matrices in memory, and fit 32 bits. -/
structure Fits (ta tb : Bool) (m n k : Nat) (lda ldb ldc : Int) : Prop where
  a : max 1 (if ta then (m : Int) else k) ≤ lda
  b : max 1 (if tb then (k : Int) else n) ≤ ldb
  c : max 1 (n : Int) ≤ ldc
  m : (m : Int) < 2147483648
  n : (n : Int) < 2147483648
  k : (k : Int) < 2147483648
  lda : lda < 2147483648
  ldb : ldb < 2147483648
  ldc : ldc < 2147483648

theorem elem_holds {t : Bool} {M : Mem} {p ld : Int} {m n : Nat} {A : Matrix (Fin m) (Fin n) ℝ} (h : HoldsOp t M p ld A) (i : Fin m) (j : Fin n) :
    elem M t p ld i j = A i j := by
  cases t with
  | false => exact h i j
  | true => exact h j i

theorem offset_div {ldc : Int} {i j : Nat} (h : (j : Int) < ldc) : ((i : Int) * ldc + j) / ldc = i ∧ ((i : Int) * ldc + j) % ldc = j := by
  have h0 : 0 < ldc := lt_of_le_of_lt (Int.natCast_nonneg j) h
  constructor
  · rw [Int.add_comm, Int.add_mul_ediv_right _ _ (ne_of_gt h0), Int.ediv_eq_zero_of_lt (Int.natCast_nonneg j) h, zero_add]
  · rw [Int.add_comm, Int.add_mul_emod_self_right, Int.emod_eq_of_lt (Int.natCast_nonneg j) h]

/-- **C85 (matrix products).** If CBLAS knows the numbers gonum uses for the transpositions, the queued product is the product, and nothing else changes. -/
theorem queued_gemm (code : Bool → Nat) (hcode : ∀ t, cblasTrans (code t) = some t) (ta tb : Bool) {m n k : Nat} (α β : ℝ) (a b c lda ldb ldc : Int)
    (hf : Fits ta tb m n k lda ldb ldc) (M : Mem) (A : Matrix (Fin m) (Fin k) ℝ) (B : Matrix (Fin k) (Fin n) ℝ) (C : Matrix (Fin m) (Fin n) ℝ)
    (hA : HoldsOp ta M a lda A) (hB : HoldsOp tb M b ldb B) (hC : Holds M c ldc C) :
    ∃ M', processFn (dgemmBlock code ta tb m n k α a lda b ldb β c ldc) M = some M' ∧ IsProduct M M' c ldc α β A B C := by
  have e1 := number_gemm
  have ha := hf.a; have hb := hf.b; have hc := hf.c
  have h1 : cint lda = lda := cint_id (le_trans (le_trans zero_le_one (le_max_left _ _)) ha) hf.lda
  have h2 : cint ldb = ldb := cint_id (le_trans (le_trans zero_le_one (le_max_left _ _)) hb) hf.ldb
  have h3 : cint ldc = ldc := cint_id (le_trans (le_trans zero_le_one (le_max_left _ _)) hc) hf.ldc
  refine ⟨_, by
    unfold processFn dgemmBlock
    simp only [e1]
    rw [if_neg (by decide), if_pos trivial], ?_⟩
  have hn : (n : Int) ≤ ldc := le_trans (le_max_right _ _) hc
  simp only [cint_id (Int.natCast_nonneg m) hf.m, cint_id (Int.natCast_nonneg n) hf.n, cint_id (Int.natCast_nonneg k) hf.k, h1, h2, h3, cblasDgemm, hcode]
  rw [if_pos ⟨trivial, ha, hb, hc⟩]
  constructor
  · intro i j
    have hj : ((j : Nat) : Int) < n := by exact_mod_cast j.2
    have hi : ((i : Nat) : Int) < m := by exact_mod_cast i.2
    have hp : (c + (i : Nat) * ldc + (j : Nat)) - c = ((i : Nat) : Int) * ldc + (j : Nat) := by ring
    obtain ⟨q1, q2⟩ := offset_div (i := (i : Nat)) (lt_of_lt_of_le hj hn)
    have h0 : (0 : Int) ≤ ((i : Nat) : Int) * ldc + (j : Nat) :=
      add_nonneg (mul_nonneg (Int.natCast_nonneg _) (le_trans (Int.natCast_nonneg n) hn)) (Int.natCast_nonneg _)
    beta_reduce
    rw [hp, q1, q2, if_pos ⟨h0, hi, hj⟩, hC i j]
    simp only [Int.toNat_natCast, Matrix.add_apply, Matrix.smul_apply, Matrix.mul_apply, smul_eq_mul]
    have hs : ∑ l ∈ range k, elem M ta a lda i l * elem M tb b ldb l j = ∑ l, A i l * B l j := by
      rw [Finset.sum_range]
      exact Finset.sum_congr rfl fun l _ => by rw [elem_holds hA, elem_holds hB]
    rw [hs]
  · intro p hp
    by_cases hin : 0 ≤ p - c ∧ (p - c) / ldc < m ∧ (p - c) % ldc < n
    · exfalso
      have hl : 0 < ldc := lt_of_lt_of_le zero_lt_one (le_trans (le_max_left _ _) hc)
      have hd := Int.ediv_nonneg hin.1 (le_of_lt hl)
      have hm := Int.emod_nonneg (p - c) (ne_of_gt hl)
      have h5 := hin.2.1
      have h6 := hin.2.2
      refine hp ⟨((p - c) / ldc).toNat, by omega⟩ ⟨((p - c) % ldc).toNat, by omega⟩ ?_
      simp only [Int.toNat_of_nonneg hd, Int.toNat_of_nonneg hm]
      have := Int.mul_ediv_add_emod (p - c) ldc
      rw [mul_comm] at this
      omega
    · exact if_neg hin

/-- A transposition CBLAS does not know: nothing is computed. -/
theorem queued_gemm_nothing (code : Bool → Nat) (ta tb : Bool) (h : cblasTrans (code ta) = none ∨ cblasTrans (code tb) = none) (m n k : Int) (α β : ℝ)
    (a b c lda ldb ldc : Int) (M : Mem) : processFn (dgemmBlock code ta tb m n k α a lda b ldb β c ldc) M = some M := by
  have e1 := number_gemm
  unfold processFn dgemmBlock
  simp only [e1]
  rw [if_neg (by decide), if_pos trivial]
  simp only [cblasDgemm]
  rcases h with h | h
  · rw [h]
  · rw [h]; cases cblasTrans (code ta) <;> rfl

/-- The transpositions of gonum v0.11.0 are the letters N and T; CBLAS knows neither. -/
def gonumCode (t : Bool) : Nat := if t then 'T'.toNat else 'N'.toNat

/-- **C85 (negation).** With the letters of gonum no queued product is computed. -/
theorem queued_gemm_gonum (ta tb : Bool) (m n k : Int) (α β : ℝ) (a b c lda ldb ldc : Int) (M : Mem) :
    processFn (dgemmBlock gonumCode ta tb m n k α a lda b ldb β c ldc) M = some M :=
  queued_gemm_nothing gonumCode ta tb (Or.inl (by cases ta <;> decide)) m n k α β a b c lda ldb ldc M

/-- Numbers above 32 bits are cut: with 2^32 columns the product of a row and a column is taken to be empty. -/
theorem queued_gemm_large (code : Bool → Nat) (hcode : ∀ t, cblasTrans (code t) = some t) (α β : ℝ) (a b c : Int) (M : Mem) :
    ∃ M', processFn (dgemmBlock code false false 1 1 4294967296 α a 4294967297 b 1 β c 1) M = some M' ∧ M' c = β * M c := by
  have e1 := number_gemm
  refine ⟨_, by
    unfold processFn dgemmBlock
    simp only [e1]
    rw [if_neg (by decide), if_pos trivial], ?_⟩
  have h1 : cint 1 = 1 := by decide
  have h2 : cint 4294967296 = 0 := by decide
  have h3 : cint 4294967297 = 1 := by decide
  simp only [h1, h2, h3, cblasDgemm, hcode]
  simp

/-- **C85 (matrix-vector products).** For square matrices, and numbers CBLAS knows, the queued product is the product, and nothing else changes. -/
theorem queued_gemv (code : Bool → Nat) (hcode : ∀ t, cblasTrans (code t) = some t) (ta : Bool) {m : Nat} (α β : ℝ) (a x y lda incX incY : Int)
    (hl : max 1 (m : Int) ≤ lda) (hX : 0 < incX) (hY : 0 < incY) (hl' : lda < 2147483648) (hX' : incX < 2147483648) (hY' : incY < 2147483648)
    (M : Mem) (A : Matrix (Fin m) (Fin m) ℝ) (u v : Fin m → ℝ) (hA : HoldsOp ta M a lda A) (hu : HoldsVec M x incX u) (hv : HoldsVec M y incY v) :
    ∃ M', processFn (dgemvBlock code ta m m α a lda x incX β y incY) M = some M' ∧ HoldsVec M' y incY (α • (A *ᵥ u) + β • v) ∧
      ∀ p, (∀ i : Fin m, p ≠ y + (i : Nat) * incY) → M' p = M p := by
  have e1 := number_gemv
  have hm : (m : Int) ≤ lda := le_trans (le_max_right _ _) hl
  have h1 : cint lda = lda := cint_id (le_trans (Int.natCast_nonneg m) hm) hl'
  have h2 : cint m = m := cint_id (Int.natCast_nonneg m) (lt_of_le_of_lt hm hl')
  refine ⟨_, by
    unfold processFn dgemvBlock
    simp only [e1]
    rw [if_pos trivial], ?_⟩
  simp only [h1, h2, cint_id (le_of_lt hX) hX', cint_id (le_of_lt hY) hY', cblasDgemv, hcode, ite_self]
  rw [if_pos ⟨trivial, hl, hX, hY⟩]
  constructor
  · intro i
    have hi : ((i : Nat) : Int) < m := by exact_mod_cast i.2
    have hp : (y + (i : Nat) * incY) - y = ((i : Nat) : Int) * incY := by ring
    have q1 : ((i : Nat) : Int) * incY / incY = i := Int.mul_ediv_cancel _ (ne_of_gt hY)
    have q2 : ((i : Nat) : Int) * incY % incY = 0 := Int.mul_emod_left _ _
    beta_reduce
    rw [hp, q1, q2, if_pos ⟨mul_nonneg (Int.natCast_nonneg _) (le_of_lt hY), rfl, hi⟩, hv i]
    simp only [Int.toNat_natCast, Pi.add_apply, Pi.smul_apply, Matrix.mulVec, dotProduct, smul_eq_mul]
    have hs : ∑ l ∈ range m, elem M ta a lda i l * M (x + l * incX) = ∑ l, A i l * u l := by
      rw [Finset.sum_range]
      exact Finset.sum_congr rfl fun l _ => by rw [elem_holds hA, hu l]
    rw [hs]
  · intro p hp
    by_cases hin : 0 ≤ p - y ∧ (p - y) % incY = 0 ∧ (p - y) / incY < m
    · exfalso
      have hd := Int.ediv_nonneg hin.1 (le_of_lt hY)
      have h5 := hin.2.2
      refine hp ⟨((p - y) / incY).toNat, by omega⟩ ?_
      simp only [Int.toNat_of_nonneg hd]
      have := Int.mul_ediv_add_emod (p - y) incY
      rw [hin.2.1, mul_comm] at this
      omega
    · exact if_neg hin

/-- With the letters of gonum no matrix-vector product is computed either. -/
theorem queued_gemv_gonum (ta : Bool) (m n : Int) (α β : ℝ) (a x y lda incX incY : Int) (M : Mem) :
    processFn (dgemvBlock gonumCode ta m n α a lda x incX β y incY) M = some M := by
  have e1 := number_gemv
  unfold processFn dgemvBlock
  simp only [e1]
  rw [if_pos trivial]
  have : cblasTrans (gonumCode ta) = none := by cases ta <;> decide
  simp only [cblasDgemv, this]

/-- The product of the row (1, 2) and the column (3, 4), stored at 0 and 2, is written to 4. -/
example : ∃ M', processFn (dgemmBlock (fun t => if t then 112 else 111) false false (1 : Nat) (1 : Nat) (2 : Nat) 1 0 2 2 1 0 4 1) (fun p => (p + 1 : Int)) = some M' ∧
    M' 4 = 11 := by
  obtain ⟨M', h1, h2, _⟩ := queued_gemm (fun t => if t then 112 else 111) (by decide) false false 1 0 0 2 4 2 1 1
    ⟨by decide, by decide, by decide, by decide, by decide, by decide, by decide, by decide, by decide⟩ (fun p => ((p + 1 : Int) : ℝ))
    (Matrix.of fun _ j => ((j : Nat) : ℝ) + 1 : Matrix (Fin 1) (Fin 2) ℝ) (Matrix.of fun i _ => ((i : Nat) : ℝ) + 3 : Matrix (Fin 2) (Fin 1) ℝ)
    (Matrix.of fun _ _ => 5 : Matrix (Fin 1) (Fin 1) ℝ)
    (by intro i j; have := Fin.val_eq_zero i; simp [this]) (by intro i j; have := Fin.val_eq_zero j; simp [this]; ring)
    (by intro i j; have h1 := Fin.val_eq_zero i; have h2 := Fin.val_eq_zero j; simp [h1, h2]; try norm_num)
  refine ⟨M', h1, ?_⟩
  have := h2 0 0
  simp [Matrix.mul_apply, Fin.sum_univ_succ] at this
  rw [this]; norm_num

end
end Verif.Blase
