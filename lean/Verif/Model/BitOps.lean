/-
Model of `loperator/bit_ops.hpp`.  `std::uint64_t` is `Nat`; every operation whose 64-bit version can wrap is reduced
modulo 2^64 explicitly.  All theorems assume 64-bit arguments (`< 2^64`).
-/
namespace LC

/-- 2^64 -/
abbrev W64 : Nat := 2 ^ 64

/-- `a + b` on `uint64_t`. -/
def add64 (a b : Nat) : Nat := (a + b) % W64
/-- `a - b` on `uint64_t`. -/
def sub64 (a b : Nat) : Nat := (a + W64 - b) % W64
/-- `a * b` on `uint64_t`. -/
def mul64 (a b : Nat) : Nat := (a * b) % W64
/-- unary `-a` on `uint64_t`. -/
def neg64 (a : Nat) : Nat := (W64 - a) % W64
/-- `~a` on `uint64_t`. -/
def not64 (a : Nat) : Nat := a ^^^ (W64 - 1)
/-- `a << n` on `uint64_t`; undefined for `n ≥ 64` (`none`). -/
def shl64? (a n : Nat) : Option Nat := if n < 64 then some ((a <<< n) % W64) else none

/-- `pow2(n)` (bit_ops.hpp:32-34): `1 << n`, undefined (`none`) for `n ≥ 64`. -/
def pow2? (n : Nat) : Option Nat := shl64? 1 n

/-- `pow2(n)` (bit_ops.hpp:32-34) for `n < 64`, where the shift is defined; the callers' obligations `n < 64` are
hypotheses of the theorems. -/
def pow2 (n : Nat) : Nat := (1 <<< n) % W64

/-- The compiler intrinsic `__builtin_clzll` (trusted meaning): number of leading zeros of a non-zero 64-bit word. -/
def builtinClz (x : Nat) : Nat := 63 - Nat.log2 x

/-- `next_pow2`, GNU/Clang branch (bit_ops.hpp:38-40): `1 << (64 - clz(i - 1))`; the shift by 64 is undefined. -/
def nextPow2Gnu? (i : Nat) : Option Nat :=
  if i < 2 then some 1 else shl64? 1 (64 - builtinClz (sub64 i 1))

/-- `i |= i >> s` -/
def smear (s i : Nat) : Nat := i ||| (i >>> s)

/-- `next_pow2`, portable branch (bit_ops.hpp:38, 42-51). -/
def nextPow2Portable (i : Nat) : Nat :=
  if i < 2 then 1 else
    add64 (smear 32 (smear 16 (smear 8 (smear 4 (smear 2 (smear 1 (sub64 i 1))))))) 1

/-- The compiler intrinsic `__builtin_popcountll` (trusted meaning): number of set bits. -/
def builtinPopcount (x : Nat) : Nat := ((List.range 64).filter (x.testBit ·)).length

/-- The compiler intrinsic `__builtin_parityll` (trusted meaning). -/
def builtinParity (x : Nat) : Bool := builtinPopcount x % 2 == 1

/-- The compiler intrinsic `__builtin_ctzll` (trusted meaning): position of the lowest set bit of a non-zero word. -/
def builtinCtz (x : Nat) : Nat := ((List.range 64).filter (x.testBit ·)).headD 64

/-- `i ^= i >> s` -/
def xorFold (s i : Nat) : Nat := i ^^^ (i >>> s)

/-- The xor-folding shared by the portable branches (bit_ops.hpp:60-65, 75-80). -/
def xorFoldAll (i : Nat) : Nat := xorFold 1 (xorFold 2 (xorFold 4 (xorFold 8 (xorFold 16 (xorFold 32 i)))))

/-- `popcount`, GNU/Clang branch (bit_ops.hpp:57-58). -/
def popcount (i : Nat) : Nat := builtinPopcount i

/-- `popcount`, portable branch (bit_ops.hpp:60-66): returned as `unsigned int` (32 bits). -/
def popcountPortable (i : Nat) : Nat := xorFoldAll i % 2 ^ 32

/-- `parity_popcount`, GNU/Clang branch (bit_ops.hpp:72-73). -/
def parityPopcount (i : Nat) : Bool := builtinParity i

/-- `parity_popcount`, portable branch (bit_ops.hpp:75-81). -/
def parityPopcountPortable (i : Nat) : Bool := (xorFoldAll i &&& 1) != 0

/-- `count_trailing_zeros`, GNU/Clang branch (bit_ops.hpp:87-88). -/
def ctz (i : Nat) : Nat := builtinCtz i

/-- One `if((i & m) == 0) { n = n + s; i = i >> s; }` of the portable `count_trailing_zeros`. -/
def ctzStep (m s : Nat) (p : Nat × Nat) : Nat × Nat :=
  if p.2 &&& m = 0 then (p.1 + s, p.2 >>> s) else p

/-- `count_trailing_zeros`, portable branch (bit_ops.hpp:90-113). -/
def ctzPortable (i : Nat) : Nat :=
  let p := ctzStep 0x00000003 2 (ctzStep 0x0000000f 4 (ctzStep 0x000000ff 8 (ctzStep 0x0000ffff 16
    (ctzStep 0xffffffff 32 (1, i)))))
  p.1 - (p.2 &&& 1)

theorem land_pred_lt {m : Nat} (h : m ≠ 0) : m &&& (m - 1) < m :=
  Nat.lt_of_le_of_lt Nat.and_le_right (by omega)

/-- Loop of `deposit_bits`, portable branch (bit_ops.hpp:123-129). `mask - 1` does not wrap for `mask ≠ 0`. The BMI2
branch `_pdep_u64` has the same documented meaning. -/
def depositLoop (src mask bb res : Nat) : Nat :=
  if _h : mask = 0 then res else
    depositLoop src (mask &&& (mask - 1)) (add64 bb bb) (if src &&& bb ≠ 0 then res ||| (mask &&& neg64 mask) else res)
  termination_by mask
  decreasing_by exact land_pred_lt _h

/-- `deposit_bits(src, mask)` (bit_ops.hpp:118-131). -/
def depositBits (src mask : Nat) : Nat := depositLoop src mask 1 0

/-- Loop of `extract_bits`, portable branch (bit_ops.hpp:139-144). -/
def extractLoop (val mask bb res : Nat) : Nat :=
  if _h : mask = 0 then res else
    extractLoop val (mask &&& (mask - 1)) (add64 bb bb) (if val &&& mask &&& neg64 mask ≠ 0 then res ||| bb else res)
  termination_by mask
  decreasing_by exact land_pred_lt _h

/-- `extract_bits(val, mask)` (bit_ops.hpp:134-146). -/
def extractBits (val mask : Nat) : Nat := extractLoop val mask 1 0

end LC
