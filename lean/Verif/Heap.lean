import Mathlib.Order.Defs.LinearOrder
import Mathlib.Data.List.Basic

/-!
# Binary heaps

Model of the heap algorithm used twice in the code base:

* `/repo/queueing_tool/network/priority_queue.pyx` lines 101-192 (`heappop`, `_siftdown`,
  `_siftup`, `heapify`), where `heap`/`hmap` are two parallel arrays: here one list of pairs;
* CPython's `heapq.heappush`/`heappop`, imported in
  `/repo/queueing_tool/queues/queue_servers.py` line 5, used on lists of agents, compared with
  `Agent.__lt__` (`/repo/queueing_tool/queues/agents.py` lines 38-50), i.e. by time.

The two are the same algorithm.  Everything is in the `Option` monad: `none` is an access outside
the array.  In the `.pyx` file bounds checks are compiled out (`boundscheck(False)`), so there `none`
means an out-of-bounds read or write; in Python it would be an `IndexError`.
-/

namespace Verif

variable {α T : Type*} [LinearOrder T]

/-- Checked array write `l[i] = x`. -/
def setChk (l : List α) (i : Nat) (x : α) : Option (List α) :=
  if i < l.length then some (l.set i x) else none

/-- The `while pos > startpos` loop of `_siftdown` together with the final write,
priority_queue.pyx lines 137-150. `fuel` bounds the number of iterations; it is `pos + 1` at the
start, more than the loop can use (running out would be `none`, which the theorems exclude). -/
def siftdownLoop (key : α → T) (newitem : α) (startpos : Nat) :
    Nat → List α → Nat → Option (List α)
  | 0, _, _ => none
  | fuel + 1, l, pos =>
    if startpos < pos then
      match l[(pos - 1) / 2]? with
      | none => none
      | some parent =>
        if key newitem < key parent then
          match setChk l pos parent with
          | none => none
          | some l' => siftdownLoop key newitem startpos fuel l' ((pos - 1) / 2)
        else setChk l pos newitem
    else setChk l pos newitem

/-- `_siftdown(heap, hmap, startpos, pos)`, priority_queue.pyx lines 131-150. -/
def siftdown (key : α → T) (l : List α) (startpos pos : Nat) : Option (List α) :=
  match l[pos]? with
  | none => none
  | some newitem => siftdownLoop key newitem startpos (pos + 1) l pos

/-- Choice of the smaller child, priority_queue.pyx lines 168-171
(`if rightpos < endpos and not heap[childpos] < heap[rightpos]: childpos = rightpos`). -/
def smallerChild (key : α → T) (l : List α) (childpos endpos : Nat) : Option Nat :=
  if childpos + 1 < endpos then
    match l[childpos]?, l[childpos + 1]? with
    | some a, some b => some (if key a < key b then childpos else childpos + 1)
    | _, _ => none
  else some childpos

/-- The `while childpos < endpos` loop of `_siftup` and the final write and `_siftdown`,
priority_queue.pyx lines 166-183. `fuel` as in `siftdownLoop`; it is `endpos` at the start. -/
def siftupLoop (key : α → T) (newitem : α) (startpos endpos : Nat) :
    Nat → List α → Nat → Option (List α)
  | 0, _, _ => none
  | fuel + 1, l, pos =>
    if 2 * pos + 1 < endpos then
      match smallerChild key l (2 * pos + 1) endpos with
      | none => none
      | some c =>
        match l[c]? with
        | none => none
        | some x =>
          match setChk l pos x with
          | none => none
          | some l' => siftupLoop key newitem startpos endpos fuel l' c
    else
      match setChk l pos newitem with
      | none => none
      | some l' => siftdown key l' startpos pos

/-- `_siftup(heap, hmap, pos, endpos)`, priority_queue.pyx lines 156-183. -/
def siftup (key : α → T) (l : List α) (pos endpos : Nat) : Option (List α) :=
  match l[pos]? with
  | none => none
  | some newitem => siftupLoop key newitem pos endpos (endpos + 1) l pos

/-- The loop of `heapify`, priority_queue.pyx lines 189-192: `m` positions are left to process,
the next one is `m - 1`. -/
def heapifyLoop (key : α → T) (n : Nat) : Nat → List α → Option (List α)
  | 0, l => some l
  | m + 1, l =>
    match siftup key l m n with
    | none => none
    | some l' => heapifyLoop key n m l'

/-- `heapify(heap, hmap, n)`, priority_queue.pyx lines 189-192. -/
def heapify (key : α → T) (l : List α) (n : Nat) : Option (List α) :=
  heapifyLoop key n (n / 2) l

/-- `heapq.heappush(heap, item)`: append and sift down (CPython `heapq.py`; used in
queue_servers.py lines 361, 373, 488, 498, 632). -/
def heappush (key : α → T) (l : List α) (x : α) : Option (List α) :=
  siftdown key (l ++ [x]) 0 l.length

/-- `heapq.heappop(heap)`: remove the last element, put it first and sift up (CPython `heapq.py`;
used in queue_servers.py lines 481, 582, 606, 865).  `none` is the `IndexError` on an empty list. -/
def heappop (key : α → T) (l : List α) : Option (α × List α) :=
  match l.getLast? with
  | none => none
  | some last =>
    match l.dropLast with
    | [] => some (last, [])
    | top :: rest =>
      match siftup key ((top :: rest).set 0 last) 0 (top :: rest).length with
      | none => none
      | some l' => some (top, l')

/-! ## Specification -/

/-- Heap order among the first `n` cells for all positions whose parent is at least `s`.
`s = 0` is the full heap condition. -/
def HeapFrom (key : α → T) (n s : Nat) (l : List α) : Prop :=
  ∀ i, 0 < i → i < n → s ≤ (i - 1) / 2 →
    ∀ x y, l[(i - 1) / 2]? = some x → l[i]? = some y → key x ≤ key y

/-- A list is a heap. -/
def IsHeap (key : α → T) (l : List α) : Prop := HeapFrom key l.length 0 l

end Verif
