import Verif.PcgExt.Model

/-!
# The extended generators that the library defines

The type aliases of `include/SSVUtils/Internal/PCG/pcg_random.hpp` (1659-1709, 1734-1790). The stream of the generators with a
selectable stream is a parameter.
-/

namespace Verif.PcgExt

open Verif Verif.Pcg

/-- `ext_std32` (1670-1673): the table is advanced by `oneseq_rxs_m_xs_32_32` (1609). -/
def extStd32 (base : Par w) (prev : Bool) (out : BitVec w → BitVec 32) (table adv : Nat) (kdd : Bool) : Cfg w 32 :=
  ⟨base, prev, out, ⟨mult32, inc32, false⟩, rxsMXs 32 mcg32, unRxsMXs unmcg32, table, adv, kdd⟩

/-- `ext_std64` (1675-1678): the table is advanced by `oneseq_rxs_m_xs_64_64` (1610). -/
def extStd64 (base : Par w) (prev : Bool) (out : BitVec w → BitVec 64) (table adv : Nat) (kdd : Bool) : Cfg w 64 :=
  ⟨base, prev, out, ⟨mult64, inc64, false⟩, rxsMXs 64 mcg64, unRxsMXs unmcg64, table, adv, kdd⟩

/-- `ext_oneseq_rxs_m_xs_32_32` (1681-1683). -/
def extOneseq32 (table adv : Nat) (kdd : Bool) : Cfg 32 32 :=
  extStd32 ⟨mult32, inc32, false⟩ true (rxsMXs 32 mcg32) table adv kdd

/-- `ext_mcg_xsh_rs_64_32` (1685-1687). -/
def extMcg64 (table adv : Nat) (kdd : Bool) : Cfg 64 32 := extStd32 ⟨mult64, 0#64, true⟩ true (xshRs 32) table adv kdd

/-- `ext_oneseq_xsh_rs_64_32` (1689-1691). -/
def extOneseq64 (table adv : Nat) (kdd : Bool) : Cfg 64 32 := extStd32 ⟨mult64, inc64, false⟩ true (xshRs 32) table adv kdd

/-- `ext_setseq_xsh_rr_64_32` (1693-1695). -/
def extSetseq64 (seq : BitVec 64) (table adv : Nat) (kdd : Bool) : Cfg 64 32 :=
  extStd32 ⟨mult64, setStream seq, false⟩ true (xshRr 32) table adv kdd

/-- `ext_mcg_xsl_rr_128_64` (1697-1699). -/
def extMcg128 (table adv : Nat) (kdd : Bool) : Cfg 128 64 := extStd64 ⟨mult128, 0#128, true⟩ false (xslRr 64) table adv kdd

/-- `ext_oneseq_xsl_rr_128_64` (1701-1703). -/
def extOneseq128 (table adv : Nat) (kdd : Bool) : Cfg 128 64 :=
  extStd64 ⟨mult128, inc128, false⟩ false (xslRr 64) table adv kdd

/-- `ext_setseq_xsl_rr_128_64` (1705-1707). -/
def extSetseq128 (seq : BitVec 128) (table adv : Nat) (kdd : Bool) : Cfg 128 64 :=
  extStd64 ⟨mult128, setStream seq, false⟩ false (xslRr 64) table adv kdd

/-- `pcg32_k2` (1739). -/
def pcg32_k2 (seq : BitVec 64) := extSetseq64 seq 6 16 true
/-- `pcg32_k2_fast` (1740). -/
def pcg32_k2_fast := extOneseq64 6 32 true

/-- `pcg32_k64` (1749). -/
def pcg32_k64 (seq : BitVec 64) := extSetseq64 seq 6 16 true
/-- `pcg32_k64_oneseq` (1750). -/
def pcg32_k64_oneseq := extMcg64 6 32 true
/-- `pcg32_k64_fast` (1751). -/
def pcg32_k64_fast := extOneseq64 6 32 true

/-- `pcg32_c64` (1753). -/
def pcg32_c64 (seq : BitVec 64) := extSetseq64 seq 6 16 false
/-- `pcg32_c64_oneseq` (1754). -/
def pcg32_c64_oneseq := extOneseq64 6 32 false
/-- `pcg32_c64_fast` (1755). -/
def pcg32_c64_fast := extMcg64 6 32 false

/-- `pcg64_k32` (1757). -/
def pcg64_k32 (seq : BitVec 128) := extSetseq128 seq 5 16 true
/-- `pcg64_k32_oneseq` (1758). -/
def pcg64_k32_oneseq := extOneseq128 5 128 true
/-- `pcg64_k32_fast` (1759). -/
def pcg64_k32_fast := extMcg128 5 128 true

/-- `pcg64_c32` (1761). -/
def pcg64_c32 (seq : BitVec 128) := extSetseq128 seq 5 16 false
/-- `pcg64_c32_oneseq` (1762). -/
def pcg64_c32_oneseq := extOneseq128 5 128 false
/-- `pcg64_c32_fast` (1763). -/
def pcg64_c32_fast := extMcg128 5 128 false

/-- `pcg32_k1024` (1772). -/
def pcg32_k1024 (seq : BitVec 64) := extSetseq64 seq 10 16 true
/-- `pcg32_k1024_fast` (1773). -/
def pcg32_k1024_fast := extOneseq64 10 32 true
/-- `pcg32_c1024` (1775). -/
def pcg32_c1024 (seq : BitVec 64) := extSetseq64 seq 10 16 false
/-- `pcg32_c1024_fast` (1776). -/
def pcg32_c1024_fast := extOneseq64 10 32 false

/-- `pcg64_k1024` (1778). -/
def pcg64_k1024 (seq : BitVec 128) := extSetseq128 seq 10 16 true
/-- `pcg64_k1024_fast` (1779). -/
def pcg64_k1024_fast := extOneseq128 10 128 true
/-- `pcg64_c1024` (1781). -/
def pcg64_c1024 (seq : BitVec 128) := extSetseq128 seq 10 16 false
/-- `pcg64_c1024_fast` (1782). -/
def pcg64_c1024_fast := extOneseq128 10 128 false

/-- `pcg32_k16384` (1789). -/
def pcg32_k16384 (seq : BitVec 64) := extSetseq64 seq 14 16 true
/-- `pcg32_k16384_fast` (1790). -/
def pcg32_k16384_fast := extOneseq64 14 32 true

end Verif.PcgExt
