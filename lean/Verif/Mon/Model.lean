/-
Hash table of key/value pairs and the caching function monitor (lib_funcs/monitoring.c).

A key is the content of a NUL-terminated string (bytes before the NUL), a value is the fixed-size block that is
copied with `memcpy` (type `P`). `malloc` succeeds.
-/
import Verif.Core.Mem

namespace C3.Mon

abbrev Key := List UInt8

/-- monitoring.c:549-558 `hashsimple`: `hashval = (size_t)*str + (hashval << 5) - hashval` modulo 2^64; `char` is
signed, so the cast sign-extends. -/
def hashsimple (size : Nat) (str : Key) : Nat :=
  (str.foldl (fun (h : BitVec 64) c => (c.toBitVec.signExtend 64) + (h <<< 5) - h) 0).toNat % size

/-- monitoring.h `struct HashtableCpair`: buckets are linked lists, newest first. -/
structure Table (P : Type) where
  size : Nat
  table : List (List (Key × P))

variable {P : Type}

/-- monitoring.c:418-444 `create_hashtable_cp`; `none` is NULL. -/
def create (size : Nat) : Option (Table P) :=
  if size < 1 then none else some ⟨size, List.replicate size []⟩

/-- monitoring.c:453-474 `lookup_key`: walk the bucket, return the first entry with an equal key. -/
def lookup (ht : Table P) (key : Key) : C (Option P) := do
  let pl ← rd ht.table (hashsimple ht.size key)
  pure ((pl.find? (fun kv => kv.1 == key)).map (·.2))

/-- monitoring.c:485-501 `add_cpair`: return code and new table. -/
def add (ht : Table P) (cp : Key × P) : C (Int × Table P) := do
  let val := hashsimple ht.size cp.1
  match ← lookup ht cp.1 with
  | some _ => pure (2, ht)
  | none => do
    let pl ← rd ht.table val
    let t ← wr ht.table val (cp :: pl)
    pure (0, ⟨ht.size, t⟩)

/-- monitoring.c:529-538 `nstored_hashtable_cp`. -/
def nstored (ht : Table P) : C Nat :=
  forN ht.size (fun ii N => do
    let pl ← rd ht.table ii
    pure (N + pl.length)) 0

/-- State of a monitored function: the table and (ghost) the list of points at which the user's function was called. -/
structure MState (X P : Type) where
  evals : Table P
  calls : List X

/-- monitoring.c:109-154 `function_monitor_eval`; `text` is the key text of a point, `pack`/`unpack` the value
encoding. -/
def monitorEval {X V : Type} (text : X → Key) (f : X → V) (pack : V → P) (unpack : P → V)
    (x : X) (st : MState X P) : C (V × MState X P) := do
  let ser := text x
  match ← lookup st.evals ser with
  | some sval => pure (unpack sval, st)
  | none => do
    let val := f x
    let (_, t) ← add st.evals (ser, pack val)
    pure (val, ⟨t, st.calls ++ [x]⟩)

/-- A history of evaluations: the returned values in order and the final state. -/
def monitorRun {X V : Type} (text : X → Key) (f : X → V) (pack : V → P) (unpack : P → V) :
    List X → MState X P → C (List V × MState X P)
  | [], st => .ok ([], st)
  | x :: xs, st => do
    let (v, st) ← monitorEval text f pack unpack x st
    let (vs, st) ← monitorRun text f pack unpack xs st
    pure (v :: vs, st)

/-- A history of insertions: return codes in order and final table. -/
def addRun : List (Key × P) → Table P → C (List Int × Table P)
  | [], ht => .ok ([], ht)
  | p :: ps, ht => do
    let (r, ht) ← add ht p
    let (rs, ht) ← addRun ps ht
    pure (r :: rs, ht)

end C3.Mon
