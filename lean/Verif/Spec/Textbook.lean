import Verif.Spec.Algebra
/-
The textbook relations of fermions, bosons and spins, as conditions on a family of elements of an associative algebra.
-/
namespace LC
variable {ι S A : Type _} [DecidableEq ι] [CommRing S] [ConstScalar S] [Ring A] [Algebra S A]

/-- Which generators may occur: all fermions and bosons, and the spins `(multiplicity, index)` allowed by `M`. -/
def Allowed (M : Nat → ι → Prop) : Gen ι → Prop
  | .spin n _ i => M n i
  | _ => True

/-- At an index that carries a spin-1/2 there is no other spin. -/
def HalfAlone (M : Nat → ι → Prop) : Prop := ∀ i n, M 2 i → M n i → n = 2

/-- Canonical (anti)commutation relations and spin algebra, for every spin allowed by `M`. `c d i` is the fermionic
creation (`d = true`) or annihilation operator; likewise for bosons. -/
structure TextbookRel (S : Type _) [CommRing S] [Algebra S A] (M : Nat → ι → Prop) (ρ : Gen ι → A) : Prop where
  /-- `{c_i, c†_j} = δ_ij`, `{c_i, c_j} = {c†_i, c†_j} = 0` -/
  car : ∀ d i e j, ρ (.fermion d i) * ρ (.fermion e j) + ρ (.fermion e j) * ρ (.fermion d i)
    = if i = j ∧ d ≠ e then 1 else 0
  /-- `[a_i, a†_j] = δ_ij` -/
  ccr : ∀ i j, ρ (.boson false i) * ρ (.boson true j) - ρ (.boson true j) * ρ (.boson false i)
    = if i = j then 1 else 0
  /-- `[a_i, a_j] = [a†_i, a†_j] = 0` -/
  ccr_same : ∀ d i j, ρ (.boson d i) * ρ (.boson d j) = ρ (.boson d j) * ρ (.boson d i)
  /-- `[S_+, S_-] = 2 S_z` -/
  spin_pm : ∀ n i, M n i → ρ (.spin n .plus i) * ρ (.spin n .minus i) - ρ (.spin n .minus i) * ρ (.spin n .plus i)
    = 2 * ρ (.spin n .z i)
  /-- `[S_z, S_+] = S_+` -/
  spin_zp : ∀ n i, M n i → ρ (.spin n .z i) * ρ (.spin n .plus i) - ρ (.spin n .plus i) * ρ (.spin n .z i)
    = ρ (.spin n .plus i)
  /-- `[S_z, S_-] = -S_-` -/
  spin_zm : ∀ n i, M n i → ρ (.spin n .z i) * ρ (.spin n .minus i) - ρ (.spin n .minus i) * ρ (.spin n .z i)
    = - ρ (.spin n .minus i)
  /-- Spins of different kind or at different sites commute. -/
  spin_comm : ∀ n c i m e j, M n i → M m j → (n ≠ m ∨ i ≠ j) →
    ρ (.spin n c i) * ρ (.spin m e j) = ρ (.spin m e j) * ρ (.spin n c i)
  /-- A ladder operator applied `2S+1 = n` times vanishes. -/
  spin_nil : ∀ n c i, M n i → c ≠ .z → ρ (.spin n c i) ^ n = 0
  /-- Spin-1/2: `S_z^2 = 1/4`. -/
  half_zz : ∀ i, M 2 i → 4 * (ρ (.spin 2 .z i) * ρ (.spin 2 .z i)) = 1
  /-- Spin-1/2: `{S_+, S_-} = 1`. -/
  half_pm : ∀ i, M 2 i → ρ (.spin 2 .plus i) * ρ (.spin 2 .minus i) + ρ (.spin 2 .minus i) * ρ (.spin 2 .plus i) = 1
  /-- Spin-1/2: `{S_z, S_±} = 0`. -/
  half_z : ∀ i c, M 2 i → c ≠ .z →
    ρ (.spin 2 .z i) * ρ (.spin 2 c i) + ρ (.spin 2 c i) * ρ (.spin 2 .z i) = 0
  /-- Operators of different algebras commute. -/
  comm_fb : ∀ d i e j, ρ (.fermion d i) * ρ (.boson e j) = ρ (.boson e j) * ρ (.fermion d i)
  comm_fs : ∀ d i n c j, M n j → ρ (.fermion d i) * ρ (.spin n c j) = ρ (.spin n c j) * ρ (.fermion d i)
  comm_bs : ∀ d i n c j, M n j → ρ (.boson d i) * ρ (.spin n c j) = ρ (.spin n c j) * ρ (.boson d i)

end LC
