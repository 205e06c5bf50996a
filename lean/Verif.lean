import Verif.Heap
import Verif.HeapProofs
import Verif.PQ
import Verif.Props.PQ
import Verif.Queue
import Verif.QueueSpec
import Verif.QueueRun
import Verif.QueueInv
import Verif.QueueShift
import Verif.QueueInv2
import Verif.QueueInv3
import Verif.QueueData
import Verif.QueueAct
import Verif.QueueFetch
import Verif.Props.QueueWit
import Verif.Props.Queue1
import Verif.Props.Queue2
import Verif.Props.Queue3
import Verif.Props.QueueCalls
import Verif.Props.QueueOrder
import Verif.Props.Queue4
import Verif.Routing
import Verif.Props.Routing1
import Verif.Props.Routing2
import Verif.Props.Routing3
import Verif.Net
import Verif.NetQueue
import Verif.NetInv
import Verif.NetStep
import Verif.NetEvent
import Verif.NetRun
import Verif.NetProj
import Verif.NetColour
import Verif.NetFacts
import Verif.Props.NetWit
import Verif.Props.Net1
import Verif.Props.Net2
import Verif.Props.Net3
import Verif.Props.Net4
import Verif.UnionFind
import Verif.Props.UnionFind
import Verif.Dict
import Verif.Graph
import Verif.Props.Graph
import Verif.GraphNet
import Verif.Props.GraphNet
import Verif.NetData
import Verif.Props.NetData
import Verif.Resource
import Verif.Props.Resource
import Verif.Colour
import Verif.Props.Colour
import Verif.Props.Net5
import Verif.Props.Net6
import Verif.Props.NetAgain
import Verif.Props.NetColour
import Verif.Info
import Verif.Props.Info
import Verif.Props.Info2
import Verif.GraphGen
import Verif.Props.GraphGen
import Verif.Props.GraphGen2
import Verif.QueueLaw
import Verif.QueueFcfs
import Verif.Props.Queue5
import Verif.NetTrip
import Verif.NetLaw
import Verif.Props.NetJourney
import Verif.Props.NetOrder
import Verif.NetDrain
import Verif.Props.NetDrain
import Verif.NetPace
import Verif.Props.NetPace
import Verif.GraphDraw
import Verif.Props.GraphDraw
import Verif.Props.EndToEnd
import Verif.EdgeLength
import Verif.Props.EdgeLength
import Verif.GraphShow
import Verif.Props.GraphShow
import Verif.ThinMath
import Verif.Props.Thinning
import Verif.Props.Thinning2
import Verif.DrawMachine
import Verif.NetFed
import Verif.Props.NetRandom
import Verif.Props.NetShare
import Verif.AnyQueue
import Verif.AnyNet
import Verif.AnyRun
import Verif.AnyFacts
import Verif.AnyData
import Verif.Props.AnyNet
import Verif.Props.AnyNet2
import Verif.Props.ResourceData
import Verif.Props.GraphCopy
import Verif.Props.QueueEnd
import Verif.Props.GraphLaw
import Verif.Props.QueueStream
import Verif.Props.NetPoisson
import Verif.InfoStats
import Verif.Props.InfoStats
import Verif.Props.AnyPace
import Verif.Props.NetStarve
import Verif.Forget
import Verif.Props.Forget
import Verif.Props.DataSwitch
import Verif.Props.NetPoisson2
import Verif.Props.Shared
import Verif.Animate
import Verif.Props.Animate
import Verif.Props.Marked
import Verif.Props.QueueFree
import Verif.Props.QueueInfinite
import Verif.Construct
import Verif.Props.Construct
import Verif.Props.NetFlow
import Verif.Rescale
import Verif.Props.Rescale
import Verif.NetArgs
import Verif.Props.NetArgs
import Verif.GraphProps
import Verif.Props.GraphProps
import Verif.Props.QueueStable
import Verif.Props.QueueThroughput
import Verif.Props.NetLine
import Verif.Props.NetLineCount
import Verif.Props.NetLineChange
import Verif.Props.QueueWaitLaw
import Verif.Props.QueueInvariant
import Verif.Props.QueueExponential
import Verif.Props.QueueMean
import Verif.Props.QueueTransform
import Verif.Props.QueueTransformMean
import Verif.Props.QueueTail
import Verif.Props.QueueMany
import Verif.Props.QueueManyCount
import Verif.Props.QueueLeft
import Verif.Props.QueueLeftPoisson
import Verif.Props.QueueLeftMean
import Verif.Props.QueueLeftLaw
import Verif.Props.QueueAllServers
import Verif.Props.NetLossLoop
import Verif.Props.QueueFound
import Verif.Props.QueueEqual
