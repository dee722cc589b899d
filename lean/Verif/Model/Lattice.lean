import Verif.Model.Vocabulary
/-!
# Model of theanolm/scoring/lattice.py

A node object is represented by its index in `Lattice.nodes`, which is also its `id` in the lattices that the readers
create, and a link object by its index in `Lattice.links`.  `S` is the type of the scores (log probabilities).
-/
namespace TheanoLM

/-- lattice.py:21-57 `Link`. -/
structure Link (S : Type) where
  startNode : Nat
  endNode : Nat
  word : Option Str
  ac : Option S
  lm : Option S
  transitions : Str
  deriving DecidableEq

/-- lattice.py:59-79 `Node`.  The attribute `best_logprob` belongs to the decoder. -/
structure Node where
  outLinks : List Nat
  inLinks : List Nat
  time : Option ℚ
  final : Bool
  deriving DecidableEq

/-- lattice.py:66-79 `Node.__init__`. -/
def Node.new : Node := ⟨[], [], none, false⟩

/-- lattice.py:81-91. -/
structure Lattice (S : Type) where
  nodes : List Node
  links : List (Link S)
  initial : Nat
  utteranceId : Option Str
  lmScale : Option S
  wiPenalty : Option S
  deriving DecidableEq

variable {S : Type}

def Lattice.outLinks (L : Lattice S) (n : Nat) : List Nat := (L.nodes.getD n Node.new).outLinks
def Lattice.inLinks (L : Lattice S) (n : Nat) : List Nat := (L.nodes.getD n Node.new).inLinks
def Lattice.time (L : Lattice S) (n : Nat) : Option ℚ := (L.nodes.getD n Node.new).time
/-- `link.start_node` and `link.end_node` -/
def Lattice.startOf (L : Lattice S) (l : Nat) : Nat := (L.links[l]?.map Link.startNode).getD 0
def Lattice.endOf (L : Lattice S) (l : Nat) : Nat := (L.links[l]?.map Link.endNode).getD 0

/-- Comparison of the keys `(x.time is None, x.time)` (lattice.py:195): nodes without a time are last.  (The time stamp
"nan" is not modelled.) -/
def timeLe : Option ℚ → Option ℚ → Bool
  | some x, some y => decide (x ≤ y)
  | _, none => true
  | none, some _ => false

/-- `list.sort(key=..., reverse=True)`: descending order that keeps the order of equal elements. -/
def insertDesc (time : Nat → Option ℚ) (x : Nat) : List Nat → List Nat
  | [] => [x]
  | y :: ys => if timeLe (time y) (time x) then x :: y :: ys else y :: insertDesc time x ys

def sortDesc (time : Nat → Option ℚ) : List Nat → List Nat
  | [] => []
  | x :: xs => insertDesc time x (sortDesc time xs)

/-- `in_degrees[next_node.id] -= 1` (lattice.py:192) -/
def decDegree (d : Nat → ℤ) (next : Nat) : Nat → ℤ := fun n => if n = next then d n - 1 else d n

/-- lattice.py:190-198, the loop over outgoing links; returns the queue and the remaining in-degrees.  The list
`in_degrees` is a function of node IDs. -/
def visitLinks (L : Lattice S) : List Nat → List Nat → (Nat → ℤ) → Except Err (List Nat × (Nat → ℤ))
  | [], queue, d => .ok (queue, d)
  | l :: ls, queue, d =>
    let next := L.endOf l                                                       -- 191
    let d := decDegree d next                                                   -- 192
    if d next = 0 then                                                          -- 193
      visitLinks L ls (sortDesc L.time (queue ++ [next])) d                     -- 194-196
    else if d next < 0 then .error .inputError                                  -- 197-198
    else visitLinks L ls queue d

/-- lattice.py:187-198, the main loop.  The result `none` means that the loop did not end within the given number of
iterations. -/
def sortLoop (L : Lattice S) : Nat → List Nat → List Nat → (Nat → ℤ) → Option (Except Err (List Nat))
  | 0, _, _, _ => none
  | fuel + 1, queue, result, d =>
    match queue.getLast? with                                                   -- 187-188
    | none => some (.ok result)
    | some node =>
      match visitLinks L (L.outLinks node) queue.dropLast d with                -- 188, 190-198
      | .error e => some (.error e)
      | .ok (queue, d) => sortLoop L fuel queue (result ++ [node]) d            -- 189

/-- lattice.py:174-206 `sorted_nodes`. -/
def sortedNodes (L : Lattice S) (fuel : Nat) : Option (Except Err (List Nat)) :=
  match sortLoop L fuel [L.initial] [] (fun n => (L.inLinks n).length) with     -- 182-186
  | some (.ok result) =>
    if result.length < L.nodes.length then some (.ok result)                    -- 200-201
    else if result.length ≠ L.nodes.length then some (.error .assertion)        -- 203
    else some (.ok result)                                                      -- 205
  | r => r

/-- lattice.py:207-225 `_add_link`. -/
def addLink (nodes : List Node) (links : List (Link S)) (link : Link S) : List Node × List (Link S) :=
  let l := links.length
  ((nodes.modify link.startNode (fun n => { n with outLinks := n.outLinks ++ [l] })).modify link.endNode
      (fun n => { n with inLinks := n.inLinks ++ [l] }),                        -- 222-223
    links ++ [link])                                                            -- 220-221

end TheanoLM
