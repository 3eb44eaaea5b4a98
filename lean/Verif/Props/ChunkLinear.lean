import Verif.Props.ChunkRace
import Verif.Props.Alone
/-!
# C119: the calls of one chunk in a sequence
-/

namespace Zarr

namespace Spec

/-- A call of a chunk that a thread began at some time, and the time at which its store call returned and what
that gave. -/
structure ChunkEvent (t : RsType) where
  thread : Nat
  start : Nat
  call : ChunkCall t
  finish : Option (Nat × Locks.Result)

/-- The chunk after a call. -/
def ChunkEvent.after {t : RsType} (st : Option (DataChunk t)) (o : ChunkEvent t) : Option (DataChunk t) :=
  match o.call with
  | .read => st
  | .write c => some c
  | .delete => none

/-- What a call that has returned may have returned, if `st` is the chunk at its place in the sequence.
`read_chunk` that is `Ok` gives `st`; it is not `Ok` only if there is no chunk. `write_chunk` is `Ok`.
`delete_chunk` fails only if there is no chunk. -/
def ChunkEvent.Right (env : Env) (m : ArrayMetadata) {t : RsType} (pos : List Nat) (st : Option (DataChunk t))
    (o : ChunkEvent t) : Prop :=
  ∀ f ∈ o.finish,
    match o.call with
    | .read => readAfterGet env m t pos f.2 = .ok st ∨ (st = none ∧ ∀ x, readAfterGet env m t pos f.2 ≠ .ok x)
    | .write _ => f.2 = .wrote
    | .delete => (∃ b, f.2 = .erased b) ∨ (st = none ∧ f.2 = .notFound)

/-- The same without the exceptions. -/
def ChunkEvent.Exact (env : Env) (m : ArrayMetadata) {t : RsType} (pos : List Nat) (st : Option (DataChunk t))
    (o : ChunkEvent t) : Prop :=
  ∀ f ∈ o.finish,
    match o.call with
    | .read => readAfterGet env m t pos f.2 = .ok st
    | .write _ => f.2 = .wrote
    | .delete => f.2 = .erased true

/-- Every call of the sequence has a result it may have. -/
def ChunksServed {t : RsType} (ok : Option (DataChunk t) → ChunkEvent t → Prop) : Option (DataChunk t) → List (ChunkEvent t) → Prop
  | _, [] => True
  | st, o :: l => ok st o ∧ ChunksServed ok (o.after st) l

end Spec

namespace Locks

open Spec

/-- The store call in a call of a chunk. -/
def _root_.Zarr.Spec.ChunkEvent.op (env : Env) (m : ArrayMetadata) {t : RsType} (o : ChunkEvent t) : Op :=
  ⟨o.thread, o.start, o.call.storeCall env m, o.finish⟩

section
variable {env : Env} {m : ArrayMetadata} {t : RsType} {pos : List Nat}

/-- The store call determines the call. -/
theorem storeCall_inj (hcodec : (codecOf env.codecs m.compressor).Lawful) {A : ChunkCall t → Prop}
    (hA : ∀ c, A (.write c) → Storable env m pos c) {k k' : ChunkCall t} (hk : A k) (hk' : A k')
    (h : k.storeCall env m = k'.storeCall env m) : k = k' := by
  cases k <;> cases k' <;> simp only [ChunkCall.storeCall, Call.set.injEq, reduceCtorEq] at h <;> try rfl
  rename_i c c'
  have h1 := readAfterGet_chunk hcodec (hA c hk)
  have h2 := readAfterGet_chunk hcodec (hA c' hk')
  rw [h] at h1
  rw [h1] at h2
  cases h2
  rfl

theorem op_inj (hcodec : (codecOf env.codecs m.compressor).Lawful) {A : ChunkCall t → Prop}
    (hA : ∀ c, A (.write c) → Storable env m pos c) {o o' : ChunkEvent t} (hk : A o.call) (hk' : A o'.call)
    (h : o.op env m = o'.op env m) : o = o' := by
  obtain ⟨a, b, c, d⟩ := o
  obtain ⟨a', b', c', d'⟩ := o'
  simp only [ChunkEvent.op, Op.mk.injEq] at h
  obtain ⟨rfl, rfl, hc, rfl⟩ := h
  cases (storeCall_inj hcodec hA (k := c) (k' := c') hk hk' hc)
  rfl

/-- The calls of the chunk whose store calls are those of a list. -/
theorem exists_ops {A : ChunkCall t → Prop} : ∀ L : List Op, (∀ o ∈ L, ∃ k, A k ∧ k.storeCall env m = o.call) →
    ∃ M : List (ChunkEvent t), (∀ o ∈ M, A o.call) ∧ M.map (ChunkEvent.op env m) = L
  | [], _ => ⟨[], by simp, rfl⟩
  | o :: L, h => by
    obtain ⟨k, hk, he⟩ := h o (by simp)
    obtain ⟨M, hM, hl⟩ := exists_ops L fun o ho => h o (by simp [ho])
    refine ⟨⟨o.thread, o.start, k, o.finish⟩ :: M, ?_, ?_⟩
    · intro o' ho'
      rcases List.mem_cons.mp ho' with rfl | ho'
      · exact hk
      · exact hM o' ho'
    · simp only [List.map_cons, hl, ChunkEvent.op, he]

/-- What the store calls return, as results of the calls of the chunk. -/
theorem served_chunks (hcodec : (codecOf env.codecs m.compressor).Lawful)
    (hnn : NothingInNothing (codecOf env.codecs m.compressor))
    {A : ChunkCall t → Prop} (hA : ∀ c, A (.write c) → Storable env m pos c) (c0 : DataChunk t)
    (hc0 : Storable env m pos c0) :
    ∀ (M : List (ChunkEvent t)) (st : Option (DataChunk t)), (∀ o ∈ M, A o.call) → (∀ c ∈ st, Storable env m pos c) →
      AllServed Op.Loose (st.map fun c => (writeChunkBytes env.codecs env.native m c).1) (M.map (ChunkEvent.op env m)) →
      ChunksServed (ChunkEvent.Right env m pos) st M
  | [], _, _, _, _ => trivial
  | o :: M, st, hM, hst, h => by
    obtain ⟨h1, h2⟩ := h
    obtain ⟨th, sta, k, fin⟩ := o
    have hk : A k := hM ⟨th, sta, k, fin⟩ (by simp)
    have hafter : (ChunkEvent.op env m ⟨th, sta, k, fin⟩).after
        (st.map fun c => (writeChunkBytes env.codecs env.native m c).1) =
        (ChunkEvent.after st ⟨th, sta, k, fin⟩).map fun c => (writeChunkBytes env.codecs env.native m c).1 := by
      cases k <;> rfl
    refine ⟨?_, served_chunks hcodec hnn hA c0 hc0 M _ (fun o ho => hM o (by simp [ho])) ?_ (hafter ▸ h2)⟩
    · intro f hf
      have hf : fin = some f := hf
      subst hf
      obtain ⟨f1, r⟩ := f
      cases k with
      | read =>
        rcases (show _ ∨ _ from h1) with h1 | ⟨h1, h1'⟩
        · left
          show readAfterGet env m t pos r = .ok st
          rw [h1]
          cases st with
          | none => rfl
          | some c => exact readAfterGet_chunk hcodec (hst c rfl)
        · right
          have hs : st = none := by simpa using h1
          refine ⟨hs, ?_⟩
          rcases h1' with rfl | rfl
          · intro x hx; cases hx
          · intro x hx
            obtain ⟨_, e2, e3, e4⟩ := hc0
            simp only [readAfterGet] at hx
            cases hx' : readChunkBytes env.codecs env.native m t pos [] with
            | ok y => exact readChunkBytes_nil hnn e4 e3 e2 y hx'
            | err e => rw [hx'] at hx; cases hx
            | panic => rw [hx'] at hx; cases hx
      | write c => exact h1
      | delete =>
        rcases (show _ ∨ _ from h1) with h1 | ⟨h1, h1'⟩
        · exact .inl h1
        · exact .inr ⟨by simpa using h1, h1'⟩
    · intro c hc
      cases k with
      | read => exact hst c hc
      | write c' => cases hc; exact hA c hk
      | delete => cases hc

end

/-- C119. Any number of threads read, write and delete one chunk, in any order and any interleaving of their
system calls. The calls that have returned, and some that are under way, can be put in one sequence that keeps
the order of calls that do not overlap, and in which every `read_chunk` that is `Ok` gives exactly the chunk
that the calls before it left, or `None` if they left none. A `read_chunk` that is not `Ok`, and a
`delete_chunk` that fails, stand where there is no chunk. If there is a chunk at first and nobody deletes it,
every `read_chunk` is `Ok`. -/
theorem C119 (env : Env) (m : ArrayMetadata) {t : RsType} (pos : List Nat)
    (hcodec : (codecOf env.codecs m.compressor).Lawful)
    (hnn : NothingInNothing (codecOf env.codecs m.compressor)) (hsome : ∃ c : DataChunk t, Storable env m pos c)
    (first : Option (DataChunk t)) (hfirst : ∀ c ∈ first, Storable env m pos c)
    (A : ChunkCall t → Prop) (hA : ∀ c, A (.write c) → Storable env m pos c) (n now : Nat) (s : Sys)
    (cur : Nat → Option (Nat × Call)) (done : List Op)
    (hr : Timed (fun c => ∃ k, A k ∧ k.storeCall env m = c)
      (first.map fun c => (writeChunkBytes env.codecs env.native m c).1) n now s cur done) :
    ∃ hist : List (ChunkEvent t), hist.map (ChunkEvent.op env m) = done ∧ (∀ o ∈ hist, A o.call) ∧
      ∃ L : List (ChunkEvent t), (L.map (·.start)).Nodup ∧ (∀ o ∈ L, A o.call) ∧
        (∀ o, o.finish.isSome → (o ∈ hist ↔ o ∈ L)) ∧
        (∀ o ∈ L, o.finish = none → cur o.thread = some (o.start, o.call.storeCall env m)) ∧
        L.Pairwise (fun a b => ∀ f ∈ b.finish, a.start ≤ f.1) ∧
        ChunksServed (ChunkEvent.Right env m pos) first L ∧
        (first.isSome → ¬ A .delete → ChunksServed (ChunkEvent.Exact env m pos) first L) := by
  have hcalls := timed_calls hr
  obtain ⟨hist, hh, hhd⟩ := exists_ops (A := A) done hcalls.1
  refine ⟨hist, hhd, hh, ?_⟩
  obtain ⟨L0, h1, h2, h3, h4, h5⟩ := C118_partial _ _ _ _ _ _ _ hr
  obtain ⟨L, hL, rfl⟩ := exists_ops (env := env) (m := m) (A := A) L0 (by
    intro o ho
    cases hf : o.finish with
    | none => exact hcalls.2 _ _ _ (h3 o ho hf)
    | some f => exact hcalls.1 o ((h2 o (by rw [hf]; rfl)).mpr ho))
  obtain ⟨c0, hc0⟩ := hsome
  have hserved := served_chunks hcodec hnn hA c0 hc0 L first hL hfirst h5
  refine ⟨L, ?_, hL, ?_, ?_, ?_, hserved, ?_⟩
  · rw [List.map_map] at h1
    exact h1
  · intro o ho
    constructor
    · intro hm
      have hm' := (h2 (o.op env m) ho).mp (hhd ▸ List.mem_map_of_mem hm)
      obtain ⟨o', ho', he⟩ := List.mem_map.mp hm'
      rw [← op_inj hcodec hA (hL o' ho') (hh o hm) he]
      exact ho'
    · intro hm
      have hm' := (h2 (o.op env m) ho).mpr (List.mem_map_of_mem hm)
      rw [← hhd] at hm'
      obtain ⟨o', ho', he⟩ := List.mem_map.mp hm'
      rw [← op_inj hcodec hA (hh o' ho') (hL o hm) he]
      exact ho'
  · intro o ho hf
    exact h3 _ (List.mem_map_of_mem ho) hf
  · rw [List.pairwise_map] at h4
    exact h4
  · intro hs hd
    clear h1 h2 h3 h4 h5 hfirst hr
    induction L generalizing first with
    | nil => trivial
    | cons o L ih =>
      obtain ⟨g1, g2⟩ := hserved
      have hne : first ≠ none := by
        intro e
        rw [e] at hs
        cases hs
      have hnd : o.call ≠ .delete := by
        intro e
        exact hd (e ▸ hL o (by simp))
      refine ⟨?_, ih _ (fun o ho => hL o (by simp [ho])) g2 ?_⟩
      · intro f hf
        have g := g1 f hf
        cases hc : o.call with
        | read =>
          rw [hc] at g
          rcases g with g | ⟨g, _⟩
          · exact g
          · exact absurd g hne
        | write c => rw [hc] at g; exact g
        | delete => exact absurd hc hnd
      · unfold ChunkEvent.after
        cases hc : o.call with
        | read => exact hs
        | write c => rfl
        | delete => exact absurd hc hnd

/-- A schedule with calls allowed by `P` is a run. -/
theorem Clocked.timed_calls {P : Call → Prop} {v : Option Bytes} {n : Nat} : ∀ (l : List (Nat × Option Call))
    (x y : Clocked), (∀ e ∈ l, ∀ c, e.2 = some c → P c) → Timed P v n x.time x.sys x.cur x.done → x.run l = some y →
    Timed P v n y.time y.sys y.cur y.done
  | [], x, y, _, h, hr => by cases hr; exact h
  | (t, c) :: l, x, y, hP, h, hr => by
    simp only [Clocked.run] at hr
    cases hs : x.step t c with
    | none => rw [hs] at hr; cases hr
    | some z =>
      rw [hs] at hr
      refine Clocked.timed_calls l z y (fun e he => hP e (by simp [he])) ?_ hr
      cases c with
      | some c =>
        simp only [Clocked.step, Option.map_eq_some_iff] at hs
        obtain ⟨s', e, rfl⟩ := hs
        exact h.start (hP (t, some c) (by simp) c rfl) e
      | none =>
        simp only [Clocked.step, Option.bind_eq_some_iff] at hs
        obtain ⟨s', e, hs⟩ := hs
        split at hs
        · rename_i r st c hr' hc
          cases hs
          exact h.finish e hr' hc
        · cases hs
        · rename_i h1 _
          cases hs
          exact h.go e h1

/-- A run of the theorem: a reader opens the file of the chunk, another thread deletes the chunk and writes
a new one, and then the reader reads the chunk that is gone. Its call overlaps both others and is the first in
the sequence. -/
example : ∃ s cur, Timed (fun c => ∃ k : ChunkCall .u16, (∀ x, k = .write x → x = demoChunk2) ∧
      k.storeCall Demo.env Demo.arr = c)
    ((some Demo.chunk).map fun c => (writeChunkBytes Demo.env.codecs Demo.env.native Demo.arr c).1) 2 25 s cur
    [⟨1, 0, .get, some (24, .got (some (writeChunkBytes Demo.env.codecs Demo.env.native Demo.arr Demo.chunk).1))⟩,
     ⟨0, 10, .set (writeChunkBytes Demo.env.codecs Demo.env.native Demo.arr demoChunk2).1, some (18, .wrote)⟩,
     ⟨0, 3, .erase, some (9, .erased true)⟩] := by
  have h := Clocked.timed_calls (P := fun c => ∃ k : ChunkCall .u16, (∀ x, k = .write x → x = demoChunk2) ∧
      k.storeCall Demo.env Demo.arr = c)
    (v := (some Demo.chunk).map fun c => (writeChunkBytes Demo.env.codecs Demo.env.native Demo.arr c).1) (n := 2)
    [(1, some .get), (1, none), (1, none), (0, some .erase), (0, none), (0, none), (0, none), (0, none), (0, none),
     (0, none), (0, some (.set (writeChunkBytes Demo.env.codecs Demo.env.native Demo.arr demoChunk2).1)), (0, none),
     (0, none), (0, none), (0, none), (0, none), (0, none), (0, none), (0, none), (1, none), (1, none), (1, none),
     (1, none), (1, none), (1, none)] ⟨0, _, _, _⟩ _ ?_ .init rfl
  · exact ⟨_, _, h⟩
  · intro e he c hc
    simp only [List.mem_cons, List.not_mem_nil, or_false] at he
    have h3 : c = .get ∨ c = .erase ∨
        c = .set (writeChunkBytes Demo.env.codecs Demo.env.native Demo.arr demoChunk2).1 := by
      have hm : e.2 ∈ [none, some .get, some .erase,
          some (.set (writeChunkBytes Demo.env.codecs Demo.env.native Demo.arr demoChunk2).1)] := by
        rcases he with rfl | rfl | rfl | rfl | rfl | rfl | rfl | rfl | rfl | rfl | rfl | rfl | rfl | rfl | rfl |
          rfl | rfl | rfl | rfl | rfl | rfl | rfl | rfl | rfl | rfl <;> simp
      rw [hc] at hm
      simpa using hm
    rcases h3 with rfl | rfl | rfl
    · exact ⟨.read, by simp, rfl⟩
    · exact ⟨.delete, by simp, rfl⟩
    · exact ⟨.write demoChunk2, by rintro x ⟨⟩; rfl, rfl⟩

end Locks
end Zarr
