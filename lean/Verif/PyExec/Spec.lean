import Verif.PyExec.Model

/-!
# What an execution means (C10, C11, C13)

The specification of the executor: the same contracts, interpreted directly on the store, with
every request answered at once.  No channel, no queue of handlers, no schedule, no
provisional charges: a write is charged its final price, which depends on the value it
replaces.
-/
namespace Verif.PyExec.Sync

structure Y where
  fr : Frame
  store : Store
  out : List Out

abbrev SM (α : Type) := Y → Except Exc α × Y

def seq {α β : Type} (m : SM α) (f : α → SM β) : SM β := fun y =>
  match m y with
  | (.ok a, y') => f a y'
  | (.error e, y') => (.error e, y')

/-- Pay `n` steps if the limit allows it; otherwise everything is gone. -/
def charge (n : ℤ) : SM Unit := fun y =>
  if y.fr.used + n ≤ y.fr.limit then (.ok (), { y with fr := { y.fr with used := y.fr.used + n } })
  else (.error (.outOfStep y.fr.used), { y with fr := { y.fr with used := y.fr.limit } })

/-- Add to the steps used without a check. -/
def bill (n : ℤ) : SM Unit := fun y => (.ok (), { y with fr := { y.fr with used := y.fr.used + n } })

/-- Change the store. -/
def write (k : Bytes) (v : Option Bytes) : SM Unit := fun y =>
  (.ok (), { y with
    store := Function.update y.store (y.fr.acct, k) (if v = some [] then none else v)
    out := y.out ++ [.setValue y.fr.query y.fr.ro (y.fr.acct, k) v] })

def get (c : Costs) (k : Bytes) : SM (Option Bytes) := fun y =>
  let v := y.store (y.fr.acct, k)
  seq (charge (applied c .get (v.getD []).length)) (fun _ y => (.ok v, y)) y

/-- What is given back first when a value replaces another one. -/
def rebate (c : Costs) (old : Option Bytes) : ℤ :=
  match old with
  | none => 0
  | some o => if c .schema = 0 then 0 else refund c o.length

/-- The price of writing `v`. -/
def price (c : Costs) (old : Option Bytes) (v : Bytes) : ℤ :=
  if c .schema = 0 then
    if old.isSome then applied c .replace v.length else applied c .set v.length
  else applied c .set v.length

def put (c : Costs) (k v : Bytes) : SM Unit := fun y =>
  if y.fr.query ∨ y.fr.ro then (.error (.base codeAccessDenied), y)
  else
    let old := y.store (y.fr.acct, k)
    if v = [] then
      seq (write k (some [])) (fun _ => bill (match old with
        | none => 0
        | some o => applied c .delete o.length)) y
    else
      seq (bill (rebate c old)) (fun _ =>
        seq (charge (price c old v)) fun _ => write k (some v)) y

def delete (c : Costs) (k : Bytes) : SM Unit := fun y =>
  if y.fr.query ∨ y.fr.ro then (.error (.base codeAccessDenied), y)
  else
    let old := y.store (y.fr.acct, k)
    seq (write k none) (fun _ => bill (match old with
      | none => 0
      | some o => applied c .delete o.length)) y

def contains (c : Costs) (answer : Store → ℕ → ℤ → Bool × ℕ × ℕ) (id : ℕ) : SM Bool := fun y =>
  let a := answer y.store id (y.fr.limit - y.fr.used)
  seq (charge (if a.2.1 > 1 then baseStep c .get * ((a.2.1 : ℤ) - 1) else 0))
    (fun _ => seq (charge (applied c .get a.2.2)) fun _ y => (.ok a.1, y)) y

def event (c : Costs) (id size : ℕ) : SM Unit := fun y =>
  if y.fr.query ∨ y.fr.ro then (.error (.base codeIllegalFormat), y)
  else seq (charge (applied c (if c .schema = 0 then .eventLog else .log) size))
    (fun _ y => (.ok (), { y with out := y.out ++ [.event y.fr.query y.fr.ro y.fr.acct id] })) y

def setFee (p : ℤ) : SM Unit := fun y =>
  if y.fr.query then (.error (.base codeIllegalFormat), y)
  else if 0 ≤ p ∧ p ≤ 100 then (.ok (), { y with fr := { y.fr with fee := p } })
  else (.error (.base codeIllegalFormat), y)

/-- The end of an invocation: its status, and the fee proportion it asked for. -/
def finish (r : Except Exc Unit × Y) : ℤ × Y :=
  (statusOf r.1,
    if r.2.fr.fee > 0 then
      { r.2 with out := r.2.out ++ [.fee r.2.fr.query r.2.fr.ro r.2.fr.acct r.2.fr.fee] }
    else r.2)

/-- The caller pays for the callee, at most what was left. -/
def settle (newLimit status used : ℤ) : SM Unit := fun y =>
  if used > newLimit then seq (bill newLimit) (fun _ y => (.error .python, y)) y
  else seq (bill used) (fun _ y => (if status = 0 then .ok () else .error (.base status), y)) y

def run (c : Costs) (answer : Store → ℕ → ℤ → Bool × ℕ × ℕ) : Prog → SM Unit
  | .ret => fun y => (.ok (), y)
  | .raise e => fun y => (.error (if e = .crash then .python else e), y)
  | .get k κ => fun y => let r := get c k y; run c answer (κ r.1) r.2
  | .put k v κ => fun y => let r := put c k v y; run c answer (κ r.1) r.2
  | .del k κ => fun y => let r := delete c k y; run c answer (κ r.1) r.2
  | .contains id κ => fun y => let r := contains c answer id y; run c answer (κ r.1) r.2
  | .balance id κ => fun y => run c answer (κ (.ok (answer y.store id 0))) y
  | .event id size κ => fun y => let r := event c id size y; run c answer (κ r.1) r.2
  | .api step κ => fun y => let r := charge step y; run c answer (κ r.1) r.2
  | .setFee p κ => fun y => let r := setFee p y; run c answer (κ r.1) r.2
  | .call acct query ro over child κ => fun y =>
    let left := y.fr.limit - y.fr.used
    if left < over then
      let r := settle left codeOutOfStep left y
      run c answer (κ r.1) r.2
    else
      let e := finish (run c answer child
        { y with fr := ⟨acct, y.fr.query || query, ro, left - over, 0, 0⟩ })
      let r := settle left e.1 (over + e.2.fr.used)
        { fr := y.fr, out := e.2.out, store := if e.1 = 0 then e.2.store else y.store }
      run c answer (κ r.1) r.2
  | .remote f κ => fun y =>
    let left := y.fr.limit - y.fr.used
    let a := f left y.store
    let r := settle left a.2.1 a.2.2
      { y with store := if y.fr.query then y.store else clean a.1 }
    run c answer (κ r.1) r.2

/-- Status, steps used, store and messages of an invocation. -/
def invoke (c : Costs) (answer : Store → ℕ → ℤ → Bool × ℕ × ℕ) (p : Prog) (acct : ℕ)
    (query ro : Bool) (limit : ℤ) (store : Store) : ℤ × ℤ × Store × List Out :=
  let e := finish (run c answer p ⟨⟨acct, query, ro, limit, 0, 0⟩, store, []⟩)
  (e.1, e.2.fr.used, e.2.store, e.2.out)

end Verif.PyExec.Sync
