import Verif.Base.Bytes

/-!
# `TransactionBatch` (pyee/pyexec/database/batch.py)

Keys and values are arbitrary; the digest is taken over bytes. `SHA3` is left out: `digestInput` is what is hashed.
-/
namespace Verif.Batch

variable {K V : Type} [DecidableEq K]

/-- `OrderedDict.__setitem__`: a present key keeps its place. -/
def put (k : K) (v : V) : List (K × V) → List (K × V)
  | [] => [(k, v)]
  | (k', v') :: l => if k' = k then (k, v) :: l else (k', v') :: put k v l

/-- `d.get(k)` with presence. -/
def get (k : K) : List (K × V) → Option V
  | [] => none
  | (k', v) :: l => if k' = k then some v else get k l

/-- `dict.update`. -/
def update (d : List (K × V)) (u : List (K × V)) : List (K × V) := u.foldl (fun d p => put p.1 p.2 d) d

/-- `_call_batches`, the last one first. -/
abbrev Frames (K V : Type) := List (List (K × V))

inductive Op (K V : Type)
  | set (k : K) (v : V)
  | enter
  | leave
  | revert

/-- `__init__`, `clear` (batch.py:62-72, 130-132). -/
def init : Frames K V := [[]]

/-- `__getitem__` (batch.py:74-79). -/
def read : Frames K V → K → Option V
  | [], _ => none
  | f :: fs, k => match get k f with
    | some v => some v
    | none => read fs k

/-- `__contains__` (batch.py:88-93): from the first frame, but only presence matters. -/
def contains (fs : Frames K V) (k : K) : Bool := fs.any (fun f => (get k f).isSome)

/-- `__setitem__`, `enter_call`, `revert_call`, `leave_call` (batch.py:81-83, 108-119); `none` is `IndexError`. -/
def step : Frames K V → Op K V → Option (Frames K V)
  | [], .set _ _ => none
  | f :: fs, .set k v => some (put k v f :: fs)
  | fs, .enter => some ([] :: fs)
  | [], .revert => none
  | _ :: fs, .revert => some ([] :: fs)
  | [], .leave => none
  | f :: fs, .leave =>
    if f = [] then some fs
    else match fs with
      | [] => none
      | g :: gs => some (update g f :: gs)

def run : Frames K V → List (Op K V) → Option (Frames K V)
  | fs, [] => some fs
  | fs, o :: l => match step fs o with
    | none => none
    | some fs => run fs l

/-- What `digest` (batch.py:26-35, 121-125) hashes; values are `None` or bytes. -/
def joined : List Bytes → Bytes
  | [] => []
  | [a] => a
  | a :: b :: l => a ++ 0x7c :: joined (b :: l)

def digestInput (d : List (Bytes × Option Bytes)) : Bytes :=
  joined (d.flatMap (fun p => match p.2 with
    | some v => [p.1, v]
    | none => [p.1]))

end Verif.Batch
