import Verif.Model.DataCache
import Verif.Model.Streams
/-
The streams over the random data files, core/src/trng_data.h:50-64.
-/
namespace TFR

/-- `create_trng_stream<T>(start_index)` and `create_drng_stream<T>(start_index)`, trng_data.h:50-64.  The stream keeps a span into the
bytes of the static vector, which live until the program ends; here it keeps the words. -/
def DataState.createDataStream (s : DataState) (w : Nat) (k : DataFile) (start : BitVec 64) :
    R (Option (Stream (R (BitVec w))) × DataState) :=
  match s.getData w k with
  | .error e => .error e
  | .ok (some words, s') => .ok (some (dataStream (match k with | .trng => "trng" | .drng => "drng") words start), s')
  | .ok (none, s') => .ok (none, s')

end TFR
