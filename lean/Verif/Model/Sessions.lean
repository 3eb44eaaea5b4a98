import Verif.Model.Walk
/-!
# Threads that make one call after the other

`Model/Walk.lean` with the moments at which a call begins and returns, so that it can be said which calls have
returned when all threads stop: the process was killed. What the threads have written by then stays, as
does everything that the system calls they made have done. -/

namespace Zarr.Wide

/-- What a thread is doing. -/
structure Session (α : Type) where
  /-- The outcomes of the calls that have returned. -/
  returned : List (Outcome α)
  /-- The call it is in, if it is in one. -/
  current : Option (Pc α)

/-- The next step of a thread that makes the calls `ps`: it begins a call, takes a step of a call (one of the system
calls of filesystem.rs:191-311), or the call returns. -/
def Session.next {α : Type} (h : Hier) (ps : List (Prog α)) (pcs : List (Pc α)) (fs : Fs) :
    Session α → Option (Session α × Fs)
  | ⟨rs, none⟩ => (ps[rs.length]?).map fun p => (⟨rs, some (.prog p)⟩, fs)
  | ⟨rs, some (.prog (.done r))⟩ => some (⟨rs ++ [r], none⟩, fs)
  | ⟨rs, some pc⟩ => (pc.next h pcs fs).map fun x => (⟨rs, some x.1⟩, x.2)

/-- The filesystem and the threads. -/
structure Sessions (α : Type) where
  fs : Fs
  threads : List (Session α)

/-- Thread `t` takes its next step. -/
def Sessions.advance {α : Type} (h : Hier) (pss : List (List (Prog α))) (s : Sessions α) (t : Nat) :
    Option (Sessions α) :=
  match s.threads[t]?, pss[t]? with
  | some σ, some ps =>
    (σ.next h ps (s.threads.filterMap Session.current) s.fs).map fun r => ⟨r.2, s.threads.set t r.1⟩
  | _, _ => none

/-- Run a schedule: which thread takes a step. -/
def Sessions.run {α : Type} (h : Hier) (pss : List (List (Prog α))) (s : Sessions α) : List Nat → Option (Sessions α)
  | [] => some s
  | t :: ts => (s.advance h pss t).bind fun s' => s'.run h pss ts

/-- The threads before anything happened. -/
def Sessions.initial {α : Type} (fs : Fs) (n : Nat) : Sessions α := ⟨fs, List.replicate n ⟨[], none⟩⟩

end Zarr.Wide
