import Verif.Regex.PatProps
/- A pattern that does not fit into the lists of threads. -/
namespace Verif.Regex

set_option maxHeartbeats 0 in
/-- A text of 98 equal letters is not found in itself: the matcher has too many threads and reports an error. -/
theorem long_literal_fails : patResult false false false (List.replicate 98 97) (strU (List.replicate 98 97)) = some (some (-1, none)) := by decide +kernel

end Verif.Regex
