import Verif.Util
import Verif.Dist.FoldModel

/-!
# Folding of distributed graphs: specification

What a plan of communications must satisfy, and where vertices must be found afterwards.
-/

set_option autoImplicit false

namespace Scotch.Fold

/-- Messages sent by process `p`, in order. -/
def sends (L : List Move) (p : Int) : List Move := L.filter (fun m => m.snd == p)

/-- Messages received by process `p`, in order. -/
def recvs (L : List Move) (p : Int) : List Move := L.filter (fun m => m.rcv == p)

/-- Number of vertices in a list of messages. -/
def tot (L : List Move) : Int := (L.map Move.num).sum

/-- The messages carry consecutive vertices, starting from `a`. -/
def Chain : Int → List Move → Prop
  | _, [] => True
  | a, m :: l => m.adj = a ∧ Chain (a + m.num) l

/-- The messages are numbered consecutively, starting from `k`. -/
def Row (idx : Move → Int) : Int → List Move → Prop
  | _, [] => True
  | k, m :: l => idx m = k ∧ Row idx (k + 1) l

namespace FoldIn
variable (f : FoldIn)

def vrt (p : Int) : Int := f.procvrttab.get p
def cnt (p : Int) : Int := f.proccnttab.get p

/-- The process receives vertices, and remains active after folding. -/
def Rcv (p : Int) : Prop := f.procrcvbas ≤ p ∧ p < f.procrcvnnd

instance (p : Int) : Decidable (f.Rcv p) := inferInstanceAs (Decidable (_ ∧ _))

/-- Ranges of a distributed graph on at least two processes; there may be holes between ranges. -/
structure Ok : Prop where
  two : 2 ≤ f.procglbnbr
  max : f.procglbnbr < 2 ^ 31
  base0 : 0 ≤ f.baseval
  vlo : f.procvrttab.lo ≤ 0
  vhi : f.procglbnbr < f.procvrttab.hi
  clo : f.proccnttab.lo ≤ 0
  chi : f.procglbnbr ≤ f.proccnttab.hi
  first : f.baseval ≤ f.vrt 0
  cnt0 : ∀ p, 0 ≤ p → p < f.procglbnbr → 0 ≤ f.cnt p
  step : ∀ p, 0 ≤ p → p < f.procglbnbr → f.vrt p + f.cnt p ≤ f.vrt (p + 1)
  sum : f.vertglbnbr = sumI 0 f.procglbnbr f.cnt

/-- What a process that stays active does: either it only receives messages, or it keeps its first vertices and sends its last
ones; in the latter case, it receives nothing, save possibly for one empty message that it sends to itself. -/
def Keeps (commmax : Int) (L : List Move) (q : Int) : Prop :=
  (sends L q = [] ∧ Row Move.ridx 0 (recvs L q) ∧ (recvs L q).length ≤ commmax) ∨
  (Chain (f.vrt q + f.cnt q - tot (sends L q)) (sends L q) ∧ Row Move.sidx 0 (sends L q) ∧ tot (sends L q) ≤ f.cnt q ∧
    (sends L q).length ≤ commmax ∧
    (recvs L q = [] ∨ ∃ m, recvs L q = [m] ∧ sends L q = [m] ∧ m.num = 0 ∧ m.ridx = 0))

/-- A sound plan, where no process takes part in more than `commmax` messages. -/
structure Good (commmax : Int) (L : List Move) : Prop where
  /-- only processes that stay active receive, and messages are marked when their sender stays active -/
  mv : ∀ m ∈ L, 0 ≤ m.num ∧ (0 ≤ m.snd ∧ m.snd < f.procglbnbr) ∧ f.Rcv m.rcv ∧ (m.both = true ↔ f.Rcv m.snd)
  /-- the other processes send all their vertices, in order, exactly once -/
  snd : ∀ p, 0 ≤ p → p < f.procglbnbr → ¬ f.Rcv p →
    Chain (f.vrt p) (sends L p) ∧ Row Move.sidx 0 (sends L p) ∧ tot (sends L p) = f.cnt p ∧ (sends L p).length ≤ commmax
  keep : ∀ q, f.Rcv q → f.Keeps commmax L q

/-- Vertices held by an active process after folding, as a list of ranges (first global number, size): those that it keeps,
then those that it receives. -/
def pieces (L : List Move) (q : Int) : List (Int × Int) :=
  (f.vrt q, f.cnt q - tot (sends L q)) :: (recvs L q).map (fun m => (m.adj, m.num))

/-- Total size of a list of ranges. -/
def size (l : List (Int × Int)) : Int := (l.map Prod.snd).sum

/-- New number of the first vertex of the `o`-th range of process `q`. -/
def start (L : List Move) (q : Int) (o : Nat) : Int :=
  f.baseval + sumI f.procrcvbas q (fun r => size (f.pieces L r)) + size ((f.pieces L q).take o)

end FoldIn

end Scotch.Fold
