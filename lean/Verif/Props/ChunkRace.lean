import Verif.Props.Locks
import Verif.Props.SeenEmpty
import Verif.Props.ChunkExact
/-!
# C117: one chunk read, written and deleted by several threads at the same time

The store calls are those of `Model/Locks`, one system call after the other and with inodes, so that a
file that somebody deletes while another has it open is followed. A call of the chunk is the store call in
its body: `read_chunk` (storage.rs:206-235) decodes what `get` gave it, `write_chunk` (storage.rs:456-470)
gives `set` the encoded chunk, `delete_chunk` (storage.rs:472-480) is `erase`. -/

namespace Zarr

/-- A call for one chunk. -/
inductive ChunkCall (t : RsType) where
  /-- `read_chunk` (storage.rs:206-235). -/
  | read
  /-- `write_chunk` (storage.rs:456-470). -/
  | write (c : DataChunk t)
  /-- `delete_chunk` (storage.rs:472-480). -/
  | delete

/-- The call of the store it makes. -/
def ChunkCall.storeCall (env : Env) (m : ArrayMetadata) {t : RsType} : ChunkCall t → Locks.Call
  | .read => .get
  | .write c => .set (writeChunkBytes env.codecs env.native m c).1
  | .delete => .erase

/-- What `read_chunk` returns after `get` (storage.rs:221-234), for a position inside the grid. -/
def readAfterGet (env : Env) (m : ArrayMetadata) (t : RsType) (pos : List Nat) :
    Locks.Result → Outcome (Option (DataChunk t))
  | .got none => .ok none
  | .got (some b) => readChunkBytes env.codecs env.native m t pos b >>= fun c => .ok (some c)
  | _ => .err .notFound

/-- `read_chunk` is `get` and what comes after it. -/
theorem readChunk_readAfterGet {env : Env} {h : Hier} {path : Str} {m : ArrayMetadata} {t : RsType} {pos : List Nat}
    {fs : Fs} {v : Option Bytes} (hin : m.inBounds pos = .ok true)
    (hg : storeGet h (chunkKey path m pos) fs = (.ok v, fs)) :
    readChunk env h path m t pos fs = (readAfterGet env m t pos (.got v), fs) := by
  simp only [readChunk, M.bind_apply, M.lift_apply, assertInBounds, hin, Outcome.bind_ok, if_true, hg]
  cases v with
  | none => rfl
  | some b =>
    simp only [M.bind_apply, M.lift_apply, readAfterGet]
    cases readChunkBytes env.codecs env.native m t pos b <;> rfl

namespace Spec

/-- A chunk that `write_chunk` accepts for the position. -/
def Storable (env : Env) (m : ArrayMetadata) {t : RsType} (pos : List Nat) (c : DataChunk t) : Prop :=
  c.gridPosition = pos ∧ c.data ≠ [] ∧ c.data.length < 2 ^ 32 ∧
    (writeChunkBytes env.codecs env.native m c).2 = .ok ()

/-- The chunk after some writes, the last one first. -/
def LastOf {t : RsType} (ws : List (DataChunk t)) (first : Option (DataChunk t)) : Option (DataChunk t) :=
  match ws with
  | c :: _ => some c
  | [] => first

end Spec

namespace Locks

open Spec

/-- The value a `set` writes. -/
def Pc.target : Pc → Option Bytes
  | .setOpen v => some v
  | .setLock _ v => some v
  | .setTrunc _ v => some v
  | .setWrite _ v _ => some v
  | _ => none

/-- Only values that a `set` was called with are written. -/
theorem log_reach {P : Call → Prop} {v : Option Bytes} {n : Nat} {s : Sys} (h : Reach P (Sys.initial v n) s) :
    (∀ b ∈ s.log, P (.set b)) ∧ ∀ (t : Nat) (p : Pc) (b : Bytes), s.pcs[t]? = some p → p.target = some b → P (.set b) := by
  induction h with
  | refl =>
    refine ⟨by simp [Sys.initial], ?_⟩
    intro t p b hp hb
    simp only [Sys.initial, List.getElem?_replicate] at hp
    split at hp
    · cases hp; cases hb
    · cases hp
  | @step s1 s2 _ hs ih =>
    obtain ⟨ih1, ih2⟩ := ih
    cases hs with
    | start t c hc h =>
      unfold Sys.start at h
      split at h
      · cases h
        refine ⟨ih1, ?_⟩
        intro t1 p b hp hb
        rcases getElem?_set' _ _ _ _ _ hp with ⟨_, e⟩ | ⟨_, e⟩
        · subst e
          cases c with
          | get => cases hb
          | set w => cases hb; exact hc
          | erase => cases hb
        · exact ih2 t1 p b e hb
      · cases h
    | advance t h =>
      unfold Sys.advance at h
      split at h
      · rename_i p hp
        split at h
        · rename_i p' s' hn
          cases h
          have key : (∀ b, p'.target = some b → p.target = some b) ∧
              (s'.log = s1.log ∨ ∃ b, p.target = some b ∧ s'.log = b :: s1.log) := by
            cases p <;> simp only [Sys.next] at hn <;>
              first
              | (cases hn; done)
              | (split at hn <;> first
                  | (cases hn; done)
                  | (cases hn; exact ⟨by simp [Pc.target], by simp [Pc.target]⟩)
                  | (cases hn; split <;> exact ⟨by simp [Pc.target], by simp [Pc.target]⟩))
              | (cases hn; exact ⟨by simp [Pc.target], by simp [Pc.target]⟩)
              | (cases hn; split <;> exact ⟨by simp [Pc.target], by simp [Pc.target]⟩)
          refine ⟨?_, ?_⟩
          · intro b hb
            rcases key.2 with e | ⟨w, hw, e⟩
            · exact ih1 b (e ▸ hb)
            · have hb' : b ∈ w :: s1.log := e ▸ hb
              rcases List.mem_cons.mp hb' with rfl | hb'
              · exact ih2 t p b hp hw
              · exact ih1 b hb'
          · intro t1 q b hq hb
            rcases getElem?_set' _ _ _ _ _ hq with ⟨_, e⟩ | ⟨_, e⟩
            · subst e; exact ih2 t p b hp (key.1 b hb)
            · exact ih2 t1 q b e hb
        · cases h
      · cases h

/-- Fewer calls, fewer states. -/
theorem Reach.mono {P Q : Call → Prop} {s0 s : Sys} (h : Reach P s0 s) (hPQ : ∀ c, P c → Q c) : Reach Q s0 s := by
  induction h with
  | refl => exact .refl
  | step _ hs ih =>
    refine ih.step ?_
    cases hs with
    | start t c hc h => exact .start t c (hPQ c hc) h
    | advance t h => exact .advance t h

section
variable {env : Env} {m : ArrayMetadata} {t : RsType} {pos : List Nat}

/-- An encoded chunk reads as the chunk. -/
theorem readAfterGet_chunk (hcodec : (codecOf env.codecs m.compressor).Lawful) {c : DataChunk t}
    (hc : Storable env m pos c) :
    readAfterGet env m t pos (.got (some (writeChunkBytes env.codecs env.native m c).1)) = .ok (some c) := by
  obtain ⟨h1, _, h3, h4⟩ := hc
  simp only [readAfterGet]
  rw [readChunkBytes_accepted hcodec h4 pos, Outcome.bind_ok, Nat.mod_eq_of_lt h3, List.take_length, ← h1]

/-- The chunks that the values in the log encode. -/
theorem exists_chunks {Q : DataChunk t → Prop} : ∀ log : List Bytes,
    (∀ b ∈ log, ∃ c, Q c ∧ b = (writeChunkBytes env.codecs env.native m c).1) →
    ∃ ws : List (DataChunk t), (∀ c ∈ ws, Q c) ∧ log = ws.map fun c => (writeChunkBytes env.codecs env.native m c).1
  | [], _ => ⟨[], by simp, rfl⟩
  | b :: log, h => by
    obtain ⟨c, hc, hb⟩ := h b (by simp)
    obtain ⟨ws, hws, hl⟩ := exists_chunks log fun b hb => h b (by simp [hb])
    refine ⟨c :: ws, ?_, by rw [List.map_cons, ← hl, hb]⟩
    intro c' hc'
    rcases List.mem_cons.mp hc' with rfl | hc'
    · exact hc
    · exact hws c' hc'

end

/-- C117. Any number of threads read, write and delete one chunk at the same time, in any order and any
interleaving of their system calls. `ws` are the chunks whose `write_chunk` has returned, the latest first.
A `read_chunk` that has returned gave `None`, an error, the chunk there was at first, or one of `ws`: never
a chunk that nobody wrote. When no `write_chunk` is under way, a `read_chunk` alone gives `None`, the chunk
there was at first or one of `ws`, and no error; if nobody deletes the chunk it gives exactly the latest. -/
theorem C117 (env : Env) (h : Hier) (path : Str) (m : ArrayMetadata) {t : RsType} (pos : List Nat)
    (hcodec : (codecOf env.codecs m.compressor).Lawful)
    (hnn : NothingInNothing (codecOf env.codecs m.compressor)) (hin : m.inBounds pos = .ok true)
    (first : Option (DataChunk t)) (hfirst : ∀ c ∈ first, Storable env m pos c)
    (A : ChunkCall t → Prop) (hA : ∀ c, A (.write c) → Storable env m pos c) (n : Nat) (s : Sys)
    (hr : Reach (fun c => ∃ k, A k ∧ k.storeCall env m = c)
      (Sys.initial (first.map fun c => (writeChunkBytes env.codecs env.native m c).1) n) s) :
    ∃ ws : List (DataChunk t), (∀ c ∈ ws, A (.write c)) ∧
      s.log = ws.map (fun c => (writeChunkBytes env.codecs env.native m c).1) ∧
      (∀ (i : Nat) (v : Option Bytes), s.pcs[i]? = some (Pc.idle (some (.got v))) →
        readAfterGet env m t pos (.got v) = .ok none ∨
        (∃ c, (c ∈ ws ∨ first = some c) ∧ readAfterGet env m t pos (.got v) = .ok (some c)) ∨
        ∀ o, readAfterGet env m t pos (.got v) ≠ .ok o) ∧
      ((∀ (i : Nat) (p : Pc), s.pcs[i]? = some p → p.inSet = false) →
        ∀ fs, storeGet h (chunkKey path m pos) fs = (.ok (s.entry.map s.content), fs) →
          ∃ o, readChunk env h path m t pos fs = (.ok o, fs) ∧ (∀ c, o = some c → c ∈ ws ∨ first = some c) ∧
            (¬ A .delete → o = LastOf ws first)) := by
  have hlog := (log_reach hr).1
  obtain ⟨ws, hws, hl⟩ := exists_chunks (env := env) (m := m) (Q := fun c => A (.write c)) s.log (by
    intro b hb
    obtain ⟨k, hk, he⟩ := hlog b hb
    cases k with
    | read => cases he
    | delete => cases he
    | write c => cases he; exact ⟨c, hk, rfl⟩)
  have hmem : ∀ b, b ∈ s.log ∨ (first.map fun c => (writeChunkBytes env.codecs env.native m c).1) = some b →
      ∃ c, (c ∈ ws ∨ first = some c) ∧ readAfterGet env m t pos (.got (some b)) = .ok (some c) := by
    intro b hb
    rcases hb with hb | hb
    · rw [hl] at hb
      obtain ⟨c, hc, rfl⟩ := List.mem_map.mp hb
      exact ⟨c, .inl hc, readAfterGet_chunk hcodec (hA c (hws c hc))⟩
    · obtain ⟨c, hc, rfl⟩ := Option.map_eq_some_iff.mp hb
      exact ⟨c, .inr hc, readAfterGet_chunk hcodec (hfirst c hc)⟩
  refine ⟨ws, hws, hl, ?_, ?_⟩
  · intro i v hv
    cases v with
    | none => exact .inl rfl
    | some b =>
      rcases (C47_partial _ n).1 _ s hr i b hv with hb | hb | ⟨hlt, rfl⟩
      · exact .inr (.inl (hmem b (.inl hb)))
      · exact .inr (.inl (hmem b (.inr hb)))
      · right; right
        obtain ⟨c, hc⟩ : ∃ c, A (.write c) := by
          rcases (inv_reach hr).fresh _ (Nat.le_refl _) hlt with hg | ⟨i, p, hp, hs⟩
          · rw [hl] at hg
            obtain ⟨c, hc, _⟩ := List.mem_map.mp hg
            exact ⟨c, hws c hc⟩
          · have ht : ∃ b, p.target = some b := by
              cases p <;> first | exact ⟨_, rfl⟩ | (cases hs)
            obtain ⟨b, hb⟩ := ht
            obtain ⟨k, hk, he⟩ := (log_reach hr).2 i p b hp hb
            cases k with
            | read => cases he
            | delete => cases he
            | write c => exact ⟨c, hk⟩
        obtain ⟨_, h2, h3, h4⟩ := hA c hc
        intro o ho
        simp only [readAfterGet] at ho
        cases hx : readChunkBytes env.codecs env.native m t pos [] with
        | ok x => exact readChunkBytes_nil hnn h4 h3 h2 x hx
        | err e => rw [hx] at ho; cases ho
        | panic => rw [hx] at ho; cases ho
  · intro hq fs hg
    rw [readChunk_readAfterGet hin hg]
    have hlast : ¬ A .delete → s.entry.map s.content =
        s.log.head?.or (first.map fun c => (writeChunkBytes env.codecs env.native m c).1) := by
      intro hd
      refine (C62_concurrentWriters _ n).2 s (hr.mono ?_) hq
      rintro c ⟨k, hk, rfl⟩ he
      cases k with
      | read => cases he
      | write c => cases he
      | delete => exact hd hk
    cases hent : s.entry with
    | none =>
      refine ⟨none, rfl, by simp, ?_⟩
      intro hd
      have := hlast hd
      rw [hent, hl] at this
      cases ws with
      | cons c ws => simp at this
      | nil =>
        cases first with
        | none => rfl
        | some c => simp at this
    | some i =>
      have hb := (C62_concurrentWriters _ n).1 _ s hr hq i hent
      obtain ⟨c, hc, hread⟩ := hmem (s.content i) hb
      refine ⟨some c, by rw [← hread]; rfl, fun c' e => by cases e; exact hc, ?_⟩
      intro hd
      have hx := hlast hd
      rw [hent, hl] at hx
      rw [Option.map_some] at hx
      rw [hx] at hread
      cases ws with
      | cons c' ws =>
        have hr' : readAfterGet env m t pos (.got (some (writeChunkBytes env.codecs env.native m c').1)) =
            .ok (some c) := hread
        rw [readAfterGet_chunk hcodec (hA c' (hws c' (by simp)))] at hr'
        cases hr'
        rfl
      | nil =>
        cases first with
        | none => simp at hx
        | some c' =>
          have hr' : readAfterGet env m t pos (.got (some (writeChunkBytes env.codecs env.native m c').1)) =
              .ok (some c) := hread
          rw [readAfterGet_chunk hcodec (hfirst c' rfl)] at hr'
          cases hr'
          rfl

/-- Another chunk at the same position. -/
def demoChunk2 : DataChunk .u16 := ⟨[1], [3#16, 4#16]⟩

/-- The hypotheses can be met: two chunks of the demo array, the first stored. -/
example : Storable Demo.env Demo.arr [1] Demo.chunk ∧ Storable Demo.env Demo.arr [1] demoChunk2 ∧
    Demo.arr.inBounds [1] = .ok true ∧ (codecOf Demo.env.codecs Demo.arr.compressor).Lawful ∧
    NothingInNothing (codecOf Demo.env.codecs Demo.arr.compressor) :=
  ⟨by unfold Storable; exact ⟨rfl, by decide, by decide, by decide +kernel⟩,
   by unfold Storable; exact ⟨rfl, by decide, by decide, by decide +kernel⟩, by decide +kernel,
   rawCodec_lawful, rawCodec_nothing⟩

/-- A deleter unlinks the file that a writer has open and a reader comes later: `None`, though the writer's
call returns `Ok` and the chunk was never seen. A reader that has the file open reads the old chunk. -/
example : (Sys.initial (some [1, 2]) 3).run
    [(0, some (.set [3, 4])), (0, none), (2, some .get), (2, none), (2, none), (1, some .erase), (1, none),
     (1, none), (1, none), (1, none), (1, none), (1, none), (2, none), (2, none), (2, none), (2, none),
     (0, none), (0, none), (0, none), (0, none), (0, none), (2, some .get), (2, none)] =
    some ⟨none, [[3, 4]], [.idle (some .wrote), .idle (some (.erased true)), .idle (some (.got none))], [[3, 4]]⟩ := by
  decide

end Locks
end Zarr
