import Verif.Model.Expanded
import Verif.Model.Resume

/-! Model of the loop of `generate_queues` over the files of a folder. -/

namespace Verif.Expanded
open Verif Verif.Builder Resume

/-- The files `*-queues-complete.csv.gz` in the output folder, by flow. -/
abbrev QueueFiles := Nat → File (List (List ℚ))

/-- The loop of `generate_queues` (src/ml/generate_queues.py:16-40) over the flows listed, with their ids: the files after every step, and how it ends. A file that exists is skipped, whatever
is in it; `np.savetxt` opens the file first. Lock files are not listed (line 27). -/
def generateQueues (edges : Nat) (past horizon step : Int) : List (Nat × FlowFile) → QueueFiles → List QueueFiles × Option Err
  | [], _ => ([], none)
  | (i, f) :: fs, d =>
    if (d i).present then generateQueues edges past horizon step fs d
    else match queuesOf edges past horizon step f with
      | .error e => ([], some e)
      | .ok table =>
        let d' := Function.update d i (.whole table)
        let r := generateQueues edges past horizon step fs d'
        (Function.update d i .torn :: d' :: r.1, r.2)

/-- The files when it has ended. -/
def generated (edges : Nat) (past horizon step : Int) (fs : List (Nat × FlowFile)) (d : QueueFiles) : QueueFiles := (generateQueues edges past horizon step fs d).1.getLast?.getD d

end Verif.Expanded
