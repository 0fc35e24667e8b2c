import Verif.Props.Accessors
import Verif.Props.ActrModel
import Verif.Props.Assoc
import Verif.Props.BoundVars
import Verif.Props.Buffer
import Verif.Props.Chunk
import Verif.Props.ChunkDict
import Verif.Props.ChunkType
import Verif.Props.Compile
import Verif.Props.Converse
import Verif.Props.Copy
import Verif.Props.Credit
import Verif.Props.Cycle
import Verif.Props.Dates
import Verif.Props.DecMem
import Verif.Props.Deeds
import Verif.Props.Demand
import Verif.Props.Emma
import Verif.Props.Ending
import Verif.Props.Environment
import Verif.Props.Errors
import Verif.Props.Firing
import Verif.Props.Forgetting
import Verif.Props.Gui
import Verif.Props.Hands
import Verif.Props.Interaction
import Verif.Props.Isolation
import Verif.Props.Layout
import Verif.Props.Learning
import Verif.Props.Misuse
import Verif.Props.Motor
import Verif.Props.Moves
import Verif.Props.Outcome
import Verif.Props.Parse
import Verif.Props.Preempt
import Verif.Props.Press
import Verif.Props.Provenance
import Verif.Props.Quiet
import Verif.Props.React
import Verif.Props.Repertoire
import Verif.Props.Repr
import Verif.Props.Requests
import Verif.Props.Rest
import Verif.Props.Retrieve
import Verif.Props.Rules
import Verif.Props.Sequence
import Verif.Props.Service
import Verif.Props.Settling
import Verif.Props.Shift
import Verif.Props.Show
import Verif.Props.Similarity
import Verif.Props.Simulation
import Verif.Props.Splitting
import Verif.Props.Stepping
import Verif.Props.Storage
import Verif.Props.Strike
import Verif.Props.StringSplit
import Verif.Props.Subsymbolic
import Verif.Props.Tally
import Verif.Props.Types
import Verif.Props.Untyped
import Verif.Props.Update
import Verif.Props.Vision
import Verif.Props.Waiting
import Verif.Audit
