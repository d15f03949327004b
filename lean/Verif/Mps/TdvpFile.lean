import Verif.Mps.Dump
import Verif.Mps.TdvpMeasure
/-
The results of `TwoSiteFiniteTDVP` as they are handed to `DumpMeasuRes` (two_site_update_finite_tdvp_impl.h:199, two_site_update_finite_tdvp_mpi_impl_master.h:170).
-/
namespace Verif.Mps.Dump

/-- A result as `DumpMeasuRes` reads it (two_site_update_finite_tdvp_impl.h:102-115, 646-648); `num` gives the times as numbers of the machine. A result that was never set has neither sites nor
times; its average is the one of the default constructor. -/
def cellRow {R V : Type} (num : Rat → R) (dflt : V) : Option (Cell V) → List Nat × List R × V
  | some c => ([c.sites.1, c.sites.2], [num c.times.1, num c.times.2], c.avg)
  | none => ([], [], dflt)

end Verif.Mps.Dump
