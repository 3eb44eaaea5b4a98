/-!
# Basic vocabulary of the model

Outcomes of a call, the state monad in which the API is modelled, strings and bytes.
Nothing here models a particular line of the Rust code; it fixes how Rust's
`Result`, panics, `&str` and `u8` are represented.
-/

namespace Zarr

/-- A Rust `&str`/`String`: the list of its Unicode scalar values. -/
abbrev Str := List Char

/-- A byte (`u8`). -/
abbrev Byte := BitVec 8

/-- A byte string (`Vec<u8>`, the content of a file). -/
abbrev Bytes := List Byte

open Lean in
/-- `str!"abc"` is the explicit list `['a', 'b', 'c']`. -/
macro:max "str!" s:str : term => do
  let cs := s.getString.toList.map (fun c => Syntax.mkCharLit c)
  `(([$(cs.toArray),*] : List Char))

/-- The kind of a `std::io::Error` (the message is not modelled). `json` stands for an
error of serde_json, which `From<serde_json::Error> for io::Error` turns into
`InvalidData`, `UnexpectedEof` or similar; the exact kind is not modelled. -/
inductive ErrKind where
  | notFound
  | alreadyExists
  | invalidData
  | invalidInput
  | unexpectedEof
  | other
  | json
  | isADirectory
  | notADirectory
  deriving DecidableEq, Repr

/-- The result of a Rust call: `Ok`, `Err`, or a panic (`assert!`, `unwrap`, `expect`,
`todo!`, index out of range, overflow with overflow checks on). -/
inductive Outcome (α : Type) where
  | ok (a : α)
  | err (e : ErrKind)
  | panic
  deriving DecidableEq, Repr

namespace Outcome

/-- The `?` operator: errors and panics propagate. -/
def bind {α β : Type} (x : Outcome α) (f : α → Outcome β) : Outcome β :=
  match x with
  | ok a => f a
  | err e => err e
  | panic => panic

instance : Monad Outcome where
  pure := ok
  bind := bind

@[simp] theorem bind_ok {α β : Type} (a : α) (f : α → Outcome β) : (Outcome.ok a >>= f) = f a := rfl
@[simp] theorem bind_err {α β : Type} (e : ErrKind) (f : α → Outcome β) :
    (Outcome.err e >>= f) = Outcome.err e := rfl
@[simp] theorem bind_panic {α β : Type} (f : α → Outcome β) :
    (Outcome.panic >>= f) = Outcome.panic := rfl
@[simp] theorem pure_def {α : Type} (a : α) : (pure a : Outcome α) = ok a := rfl
@[simp] theorem map_ok {α β : Type} (f : α → β) (a : α) : (f <$> Outcome.ok a) = ok (f a) := rfl
@[simp] theorem map_err {α β : Type} (f : α → β) (e : ErrKind) :
    (f <$> (Outcome.err e : Outcome α)) = err e := rfl
@[simp] theorem map_panic {α β : Type} (f : α → β) :
    (f <$> (Outcome.panic : Outcome α)) = panic := rfl

theorem bind_eq_ok {α β : Type} {x : Outcome α} {f : α → Outcome β} {b : β} :
    (x >>= f) = ok b ↔ ∃ a, x = ok a ∧ f a = ok b := by
  cases x with
  | ok a => simp
  | err e => simp
  | panic => simp

/-- `Option::ok_or`. -/
def ofOption {α : Type} (e : ErrKind) : Option α → Outcome α
  | some a => ok a
  | none => err e

@[simp] theorem ofOption_some {α : Type} (e : ErrKind) (a : α) : ofOption e (some a) = ok a := rfl
@[simp] theorem ofOption_none {α : Type} (e : ErrKind) : ofOption e (none : Option α) = err e := rfl

/-- `Result::is_ok` (a panic is not `Ok`; callers that would panic are handled separately). -/
def isOk {α : Type} : Outcome α → Bool
  | ok _ => true
  | _ => false

end Outcome

/-- A computation that may change a state `σ` (the filesystem) whatever its outcome. -/
def M (σ α : Type) := σ → Outcome α × σ

namespace M

def pure {σ α : Type} (a : α) : M σ α := fun s => (.ok a, s)

def bind {σ α β : Type} (x : M σ α) (f : α → M σ β) : M σ β := fun s =>
  match x s with
  | (.ok a, s') => f a s'
  | (.err e, s') => (.err e, s')
  | (.panic, s') => (.panic, s')

instance {σ : Type} : Monad (M σ) where
  pure := pure
  bind := bind

/-- Look at the state without changing it. -/
def read {σ α : Type} (f : σ → Outcome α) : M σ α := fun s => (f s, s)

/-- A result that neither reads nor changes the state. -/
def lift {σ α : Type} (o : Outcome α) : M σ α := fun s => (o, s)

@[simp] theorem bind_apply {σ α β : Type} (x : M σ α) (f : α → M σ β) (s : σ) :
    (x >>= f) s = match x s with
      | (.ok a, s') => f a s'
      | (.err e, s') => (.err e, s')
      | (.panic, s') => (.panic, s') := rfl
@[simp] theorem pure_apply {σ α : Type} (a : α) (s : σ) : (Pure.pure a : M σ α) s = (.ok a, s) := rfl
@[simp] theorem read_apply {σ α : Type} (f : σ → Outcome α) (s : σ) : read f s = (f s, s) := rfl
@[simp] theorem lift_apply {σ α : Type} (o : Outcome α) (s : σ) : lift o s = (o, s) := rfl

/-- Two computations that agree from every state are equal. -/
theorem ext {σ α : Type} {x y : M σ α} (h : ∀ s, x s = y s) : x = y := funext h

end M


end Zarr
