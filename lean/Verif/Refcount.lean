import Mathlib.Data.Finset.Card
import Mathlib.Data.Finset.Basic
import Mathlib.Logic.Function.Basic
/-
Model of the reference counting of `syntax_ptr`.

Source: /repo/TameParse/Util/syntax_ptr.h 65-154.

Pointers (`syntax_ptr` objects), references (`syntax_ptr_reference`) and the objects the references own are kept in a heap. Pointers
are variables or fields of objects; destroying an object destroys its fields, in reverse order and depth first. Every access to a
pointer or reference that does not exist (use after free, double free) is undefined behaviour, written `none`.

Simplifications:
* a reference and its object are one entry: it is removed when the count reaches zero, before the fields of the object are destroyed,
  so that touching it in between counts as undefined behaviour too;
* while a pointer is being assigned to (between lines 102 and 111) it is not in the heap;
* a null pointer is a reference to an object without fields;
* objects are created by constructors that copy some existing pointers into their fields (as the syntax tree classes do).
-/
namespace TameParse

structure PtrHeap where
  /-- The reference every existing pointer holds. -/
  ptr : Nat → Option Nat
  /-- The usage count of every existing reference and the fields of its object. -/
  ref : Nat → Option (Nat × List Nat)
  nextPtr : Nat
  nextRef : Nat
  /-- References that were deleted, the latest first. -/
  deleted : List Nat

namespace PtrHeap

def empty : PtrHeap := ⟨fun _ => none, fun _ => none, 0, 0, []⟩

/-- Destroys pointers (lines 122-130): the count goes down, and at zero the object is deleted, which destroys its fields first. -/
def cascade : Nat → List Nat → PtrHeap → Option PtrHeap
  | _, [], h => some h
  | 0, _ :: _, _ => none
  | k + 1, p :: pending, h =>
    (h.ptr p).bind fun r =>
    (h.ref r).bind fun (count, fields) =>
    if count ≤ 1 then
      cascade k (fields.reverse ++ pending)
        { h with ptr := Function.update h.ptr p none, ref := Function.update h.ref r none, deleted := r :: h.deleted }
    else
      cascade k pending { h with ptr := Function.update h.ptr p none, ref := Function.update h.ref r (some (count - 1, fields)) }

/-- A new pointer that shares the reference of `q` (copy constructor, lines 91-95). -/
def copy (h : PtrHeap) (q : Nat) : Option PtrHeap :=
  (h.ptr q).bind fun r =>
  (h.ref r).bind fun (count, fields) =>
  some { h with
    ptr := Function.update h.ptr h.nextPtr (some r)
    ref := Function.update h.ref r (some (count + 1, fields))
    nextPtr := h.nextPtr + 1 }

/-- Copies a list of pointers. -/
def copies : List Nat → PtrHeap → Option PtrHeap
  | [], h => some h
  | q :: qs, h => (h.copy q).bind (copies qs)

/-- A new object whose fields are copies of `sources`, and a new pointer that owns it (lines 87-89). -/
def create (h : PtrHeap) (sources : List Nat) : Option PtrHeap :=
  (copies sources h).map fun h' =>
    { h' with
      ptr := Function.update h'.ptr h'.nextPtr (some h'.nextRef)
      ref := Function.update h'.ref h'.nextRef (some (1, List.range' h.nextPtr sources.length))
      nextPtr := h'.nextPtr + 1
      nextRef := h'.nextRef + 1 }

/-- `p = q` (lines 98-119). -/
def assign (h : PtrHeap) (p q : Nat) : Option PtrHeap :=
  (h.ptr p).bind fun r =>
  (h.ptr q).bind fun r' =>
  if r = r' then some h
  else
    (h.ref r).bind fun (count, fields) =>
    (if count ≤ 1 then
      cascade h.nextPtr fields.reverse
        { h with ptr := Function.update h.ptr p none, ref := Function.update h.ref r none, deleted := r :: h.deleted }
    else some { h with ptr := Function.update h.ptr p none, ref := Function.update h.ref r (some (count - 1, fields)) }).bind fun h =>
    (h.ptr q).bind fun s =>
    (h.ref s).bind fun (count, fields) =>
    some { h with ptr := Function.update h.ptr p (some s), ref := Function.update h.ref s (some (count + 1, fields)) }

/-- `p` goes out of scope. -/
def destroy (h : PtrHeap) (p : Nat) : Option PtrHeap := cascade h.nextPtr [p] h

/-- What programs can do with pointers. -/
inductive Op
  | create (sources : List Nat)
  | copy (q : Nat)
  | assign (p q : Nat)
  | destroy (p : Nat)

def step (h : PtrHeap) : Op → Option PtrHeap
  | .create qs => h.create qs
  | .copy q => h.copy q
  | .assign p q => h.assign p q
  | .destroy p => h.destroy p

def run : List Op → PtrHeap → Option PtrHeap
  | [], h => some h
  | o :: os, h => (h.step o).bind (run os)

/-! ### Specification -/

/-- `x` is a field of the object of reference `r`, or of an object that can be reached from there. -/
inductive Reach (h : PtrHeap) : Nat → Nat → Prop
  | field {r c fs x} : h.ref r = some (c, fs) → x ∈ fs → Reach h r x
  | step {r y s x} : Reach h r y → h.ptr y = some s → Reach h s x → Reach h r x

/-- `x` is a variable, not a field. -/
def Root (h : PtrHeap) (x : Nat) : Prop := ∀ r c fs, h.ref r = some (c, fs) → x ∉ fs

/-- What operations may be used: pointers exist; only variables are destroyed; an assignment may not throw away, by releasing the old
value of the target, the last reference to an object from which the target or the source can be reached. -/
def Allowed (h : PtrHeap) : Op → Prop
  | .create qs => ∀ q ∈ qs, h.ptr q ≠ none
  | .copy q => h.ptr q ≠ none
  | .assign p q => ∃ r r', h.ptr p = some r ∧ h.ptr q = some r' ∧
      (r = r' ∨ (∃ p', p' ≠ p ∧ h.ptr p' = some r) ∨ (¬ Reach h r p ∧ ¬ Reach h r q))
  | .destroy p => h.ptr p ≠ none ∧ h.Root p

/-- Every operation of the program is allowed at the time it is used. -/
def AllAllowed : List Op → PtrHeap → Prop
  | [], _ => True
  | o :: os, h => h.Allowed o ∧ ∀ h', h.step o = some h' → AllAllowed os h'

end PtrHeap
end TameParse
