import Verif.Py
import Mathlib.Algebra.Group.Basic
import Mathlib.Algebra.Field.Defs

/-!
# Model of `pyroomacoustics/adaptive/data_structures.py`

Samples live in an arbitrary type with a zero (no rounding). Operations that
raise a Python exception return `Except.error` and leave the object unchanged,
which is what happens in the code: every exception is raised before an attribute
is assigned.
-/

namespace Verif.DataStructures

open Verif.Py

/-- State of `Buffer` (data_structures.py:6-21). -/
structure Buffer (α : Type*) where
  buf : List α
  len : Nat
  head : Nat
  deriving Repr, DecidableEq

/-- `Buffer.__init__` (data_structures.py:18-21). -/
def Buffer.new {α} [Zero α] (length : Nat) : Buffer α :=
  { buf := List.replicate length 0, len := length, head := length }

/-- Reallocation branch of `Buffer.push` (data_structures.py:26-32). -/
def Buffer.grow {α} [Zero α] (b : Buffer α) : Buffer α :=
  if b.head = 0 then
    { buf := List.replicate b.len 0 ++ b.buf, head := b.head + b.len, len := b.len * 2 }
  else b

/-- `Buffer.push` (data_structures.py:23-38). When the buffer was created with
length 0 the index `head - 1 = -1` addresses an empty array: `IndexError`. -/
def Buffer.push {α} [Zero α] (b : Buffer α) (v : α) : Except Err (Buffer α) :=
  let g := b.grow
  match Py.set g.buf ((g.head : Int) - 1) v with
  | .ok buf => .ok { g with buf := buf, head := g.head - 1 }
  | .error e => .error e

/-- `Buffer.top` (data_structures.py:40-43). The code returns a view; the model
returns the values at the time of the call. -/
def Buffer.top {α} (b : Buffer α) (n : Nat) : List α :=
  slice b.buf (some b.head) (some (b.head + n : Nat))

/-- `Buffer.flush` (data_structures.py:45-57) for a non-negative count. -/
def Buffer.flush {α} (b : Buffer α) (n : Nat) : Except Err (Buffer α) :=
  let n := if n > b.len - b.head then b.len - b.head else n
  let newHead := b.head + n
  match setSlice b.buf (some newHead) none (slice b.buf (some b.head) (some (-(n : Int)))) with
  | .ok buf => .ok { b with buf := buf, head := newHead }
  | .error e => .error e

/-- `Buffer.size` (data_structures.py:59-61). -/
def Buffer.size {α} (b : Buffer α) : Nat := b.len - b.head

/-- `Buffer.__getitem__` with an integer (data_structures.py:63-70). -/
def Buffer.getInt {α} (b : Buffer α) (i : Int) : Except Err α :=
  Py.get (slice b.buf (some b.head) none) i

/-- `Buffer.__getitem__` with a slice of step one (data_structures.py:63-70). -/
def Buffer.getSlice {α} (b : Buffer α) (s e : Option Int) : List α :=
  slice (slice b.buf (some b.head) none) s e

/-- Calls a user can make on a `Buffer`. -/
inductive BufOp (α : Type*)
  | push (v : α)
  | flush (n : Nat)
  | top (n : Nat)
  | size
  | getInt (i : Int)
  | getSlice (s e : Option Int)

/-- What a call returns or raises. -/
inductive BufOut (α : Type*)
  | done
  | raised (e : Err)
  | values (l : List α)
  | value (v : α)
  | count (n : Nat)
  deriving Repr, DecidableEq

/-- One call on a `Buffer`; an exception leaves the object unchanged. -/
def Buffer.step {α} [Zero α] (b : Buffer α) : BufOp α → Buffer α × BufOut α
  | .push v => match b.push v with
    | .ok b' => (b', .done)
    | .error e => (b, .raised e)
  | .flush n => match b.flush n with
    | .ok b' => (b', .done)
    | .error e => (b, .raised e)
  | .top n => (b, .values (b.top n))
  | .size => (b, .count b.size)
  | .getInt i => match b.getInt i with
    | .ok v => (b, .value v)
    | .error e => (b, .raised e)
  | .getSlice s e => (b, .values (b.getSlice s e))

/-- A history of calls, collecting the outcomes. -/
def Buffer.run {α} [Zero α] (b : Buffer α) : List (BufOp α) → Buffer α × List (BufOut α)
  | [] => (b, [])
  | op :: ops =>
    let r := b.step op
    let rest := r.1.run ops
    (rest.1, r.2 :: rest.2)

/-! ## Powers -/

/-- State of `Powers` (data_structures.py:79-105). -/
structure Powers (K : Type*) where
  a : K
  pwr : List K

/-- `a ** np.arange(lo, hi)`. -/
def powRange {K} [Monoid K] (a : K) (lo hi : Nat) : List K :=
  (List.range' lo (hi - lo)).map (fun k => a ^ k)

/-- `Powers.__init__` (data_structures.py:103-105). -/
def Powers.new {K} [Monoid K] (a : K) (length : Nat) : Powers K :=
  { a := a, pwr := powRange a 0 length }

/-- Subscripts accepted by `Powers.__getitem__`. `slice` has step one and an
optional stop; list entries may be negative. -/
inductive PowIdx
  | int (r : Int)
  | slice (start stop : Option Int)
  | list (rs : List Int)

/-- Lines 109-116: the number of powers needed; `max([])` raises `ValueError`,
`slice(None)` has no stop and the later comparison raises `TypeError`. -/
def PowIdx.high : PowIdx → Except Err Int
  | .int r => .ok (r + 1)
  | .slice _ (some stop) => .ok stop
  | .slice _ none => .error .typeError
  | .list [] => .error .valueError
  | .list (r :: rs) => .ok (rs.foldl max r + 1)

/-- Lines 118-122: enlarge the cache if needed. -/
def Powers.extend {K} [Monoid K] (p : Powers K) (high : Int) : Powers K :=
  if high > p.pwr.length then
    { p with pwr := p.pwr ++ powRange p.a p.pwr.length high.toNat }
  else p

/-- `l[rs]` for a list of indices. -/
def getMany {α} (l : List α) (rs : List Int) : Except Err (List α) :=
  rs.mapM (Py.get l)

/-- `Powers.__getitem__` (data_structures.py:107-124): new cache state and result
(a single value is returned as a one-element list). -/
def Powers.getItem {K} [Monoid K] (p : Powers K) (r : PowIdx) :
    Powers K × Except Err (List K) :=
  match r.high with
  | .error e => (p, .error e)
  | .ok h =>
    let p' := p.extend h
    match r with
    | .int i => (p', (Py.get p'.pwr i).map (fun v => [v]))
    | .slice s e => (p', .ok (Py.slice p'.pwr s e))
    | .list rs => (p', getMany p'.pwr rs)

/-- A history of subscript accesses. -/
def Powers.run {K} [Monoid K] (p : Powers K) : List PowIdx → Powers K
  | [] => p
  | r :: rs => (p.getItem r).1.run rs

/-! ## CoinFlipper

The generator is modelled as a stream of draws: the `k`-th coin ever drawn has
label `k`, so that "the same coin" is visible. The state records how many coins
have been drawn. The probability `p` only decides the value of each coin. -/

/-- State of `CoinFlipper` (data_structures.py:146-150) plus the number of coins
drawn so far from the generator. -/
structure Coins where
  buffer : List Nat
  length : Nat
  dirty : Nat
  drawn : Nat
  deriving Repr, DecidableEq

/-- `fresh_flips(n)` (data_structures.py:152-155): the next `n` draws. -/
def freshFlips (drawn n : Nat) : List Nat := List.range' drawn n

/-- `CoinFlipper.__init__` (data_structures.py:146-150). -/
def Coins.new (length : Nat) : Coins :=
  { buffer := freshFlips 0 length, length := length, dirty := 0, drawn := length }

/-- `CoinFlipper.flip_all` (data_structures.py:157-162). -/
def Coins.flipAll (c : Coins) : Coins :=
  { c with
    buffer := freshFlips c.drawn c.dirty ++ c.buffer.drop c.dirty
    dirty := 0
    drawn := c.drawn + c.dirty }

/-- Lines 167-172 of `flip`: grow the buffer when more coins are requested than it
holds. -/
def Coins.grow (c : Coins) (n : Nat) : Coins :=
  if n > c.length then
    { buffer := c.buffer ++ freshFlips c.drawn (2 * n - c.length)
      length := 2 * n
      dirty := c.dirty
      drawn := c.drawn + (2 * n - c.length) }
  else c

/-- `CoinFlipper.flip` (data_structures.py:164-181): new state and the coins
returned (as values at the time of return). -/
def Coins.flip (c : Coins) (n : Nat) : Coins × List Nat :=
  let c := c.grow n
  let c := if c.length - c.dirty < n then c.flipAll else c
  ({ c with dirty := c.dirty + n }, (c.buffer.drop c.dirty).take n)

/-- The array returned by `flip` is a numpy view `buffer[dirty : dirty+n]`
(data_structures.py:178) of the internal array, not a copy: this is the window
`(start, n)` it refers to. -/
def Coins.flipWindow (c : Coins) (n : Nat) : Nat × Nat :=
  let c := c.grow n
  let c := if c.length - c.dirty < n then c.flipAll else c
  (c.dirty, n)

/-- What the holder of a view `(start, n)` of the internal array reads in the
current state (valid as long as the array was not reallocated by `grow`). -/
def Coins.readWindow (c : Coins) (w : Nat × Nat) : List Nat := (c.buffer.drop w.1).take w.2

/-- A history of `flip` calls with the coins handed out by each. -/
def Coins.run (c : Coins) : List Nat → Coins × List (List Nat)
  | [] => (c, [])
  | n :: ns =>
    let r := c.flip n
    let rest := r.1.run ns
    (rest.1, r.2 :: rest.2)

end Verif.DataStructures
