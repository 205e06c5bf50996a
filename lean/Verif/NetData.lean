import Verif.Net
import Verif.Dict
import Verif.QueueFetch

/-! # Model of `get_agent_data` and `get_queue_data` -/

namespace Verif

section

variable {T R : Type*} [LinearOrder T]

/-- `data[agent_id] = np.vstack((data[agent_id], datum))` or `data[agent_id] = datum`, queue_network.py lines 797-803. -/
def addRows (d : Dict (Nat × Nat) (List (FRow T))) (id : Nat × Nat) (rows : List (FRow T)) :
    Dict (Nat × Nat) (List (FRow T)) :=
  match Dict.get? d id with
  | some old => Dict.set d id (old ++ rows)
  | none => Dict.set d id rows

/-- The loop over the data of one queue, queue_network.py lines 796-803. SIMPLIFIED: integers are not converted
to float. -/
def addQueueRows (d : Dict (Nat × Nat) (List (FRow T))) (k : Nat) (data : Data T) : Dict (Nat × Nat) (List (FRow T)) :=
  data.foldl (fun d p => addRows d p.1 (p.2.map fun r => ⟨r, k⟩)) d

/-- `get_agent_data()` for the selected queues `ks`, queue_network.py lines 793-818. -/
def Net.agentData (n : Net T R) (ks : List Nat) : Dict (Nat × Nat) (List (FRow T)) :=
  (ks.foldl (fun d k => addQueueRows d k (n.qs k).data) []).map fun p => (p.1, p.2.insertionSort FRow.le)

/-- `get_queue_data()` for the selected queues `ks`, queue_network.py lines 885-892. -/
def Net.queueData (N : NetCfg T R) (n : Net T R) (ks : List Nat) : List (FRow T) :=
  ks.flatMap fun k => fetchData (N.qc k) (n.qs k)

end

end Verif
