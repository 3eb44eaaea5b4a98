import Verif.Model.Streams
import Verif.Props.Device
import Verif.Props.Total
/-!
# Full devices and compressors (C53)
-/

namespace Zarr

open Spec

/-! ## What an encoder writes -/

/-- The output of an encoder before it is dropped, when the pieces `segs` are written after the pieces `done`. -/
def Spec.fedOutput (e : StreamEncoder) (done : List Bytes) : List Bytes → Bytes
  | [] => []
  | seg :: rest => (e.write done seg).flatten ++ Spec.fedOutput e (done ++ [seg]) rest

/-- The output of an encoder before it is dropped. -/
def Spec.outputBefore (e : StreamEncoder) (segs : List Bytes) : Bytes := e.start.flatten ++ fedOutput e [] segs

/-- The whole output of an encoder. -/
def Spec.output (e : StreamEncoder) (segs : List Bytes) : Bytes := outputBefore e segs ++ (e.finish segs).flatten

/-- `e` is the encoder of the codec `c`, which accepts everything. -/
def Spec.EncoderOf (e : StreamEncoder) (c : Codec) : Prop := ∀ segs, c.encode segs = (output e segs, .ok ())

theorem rawEncoder_of : EncoderOf rawEncoder rawCodec := by
  intro segs
  have : ∀ segs done, fedOutput rawEncoder done segs = segs.flatten := by
    intro segs
    induction segs with
    | nil => intro _; rfl
    | cons s r ih =>
      intro done
      rw [fedOutput, ih]
      simp [rawEncoder]
  rw [output, outputBefore, this]
  simp [rawCodec, rawEncoder]

theorem lzPureEncoder_of {lz : LzFear} {bs : Int} {pieces : Bytes → List Bytes} (hp : ∀ b, (pieces b).flatten = b)
    (hlz : ∀ b, (lz.frame (i32AsUsize bs) b).2 = .ok ()) :
    EncoderOf (lzPureEncoder lz (i32AsUsize bs) pieces) (lzPureCodec lz bs) := by
  intro segs
  have : ∀ segs done, lzPureEncode lz (i32AsUsize bs) segs =
      (fedOutput (lzPureEncoder lz (i32AsUsize bs) pieces) done segs, .ok ()) := by
    intro segs
    induction segs with
    | nil => intro _; rfl
    | cons s r ih =>
      intro done
      rw [lzPureEncode, fedOutput, ih (done ++ [s])]
      by_cases hs : s.isEmpty = true
      · rw [if_pos hs, show (lzPureEncoder lz (i32AsUsize bs) pieces).write done s = [] from if_pos hs]; rfl
      · rw [if_neg hs]
        have h1 := hlz s
        generalize hfr : lz.frame (i32AsUsize bs) s = fr at h1
        obtain ⟨o, x⟩ := fr
        simp only at h1
        subst h1
        rw [show (lzPureEncoder lz (i32AsUsize bs) pieces).write done s = pieces (lz.frame (i32AsUsize bs) s).1 from if_neg hs,
          hfr, hp]
  rw [show (lzPureCodec lz bs).encode segs = lzPureEncode lz (i32AsUsize bs) segs from rfl, this segs [], output,
    outputBefore]
  simp [lzPureEncoder]

/-! ## The buffered writer -/

/-- What a `BufWriter` has done when it holds `buf'` after `total` was to be written to it. -/
def Poured (cap : Nat) (d : Dev) (total : Bytes) (r : Dev × Bytes × Outcome Unit) : Prop :=
  (r.2.2 = .ok () ∧ r.1.written ++ r.2.1 = d.written ++ total ∧
    r.1.free + r.1.written.length = d.free + d.written.length ∧ r.2.1.length ≤ cap ∧ d.written <+: r.1.written) ∨
  (r.2.2 = .err .other ∧ r.1.free = 0 ∧ d.free < total.length ∧ r.1.written = d.written ++ total.take d.free)

theorem bufWriteAll_poured (cap : Nat) (d : Dev) (buf seg : Bytes) (hb : buf.length ≤ cap) :
    Poured cap d (buf ++ seg) (bufWriteAll cap d buf seg) := by
  unfold bufWriteAll
  by_cases h1 : cap < buf.length + seg.length
  · rw [if_pos h1]
    by_cases h2 : buf.length ≤ d.free
    · rw [Dev.writeAll_ok h2]
      simp only
      by_cases h3 : cap ≤ seg.length
      · rw [if_pos h3]
        by_cases h4 : seg.length ≤ d.free - buf.length
        · rw [Dev.writeAll_ok h4]
          exact .inl ⟨rfl, by simp, by simp; omega, by simp, by simp [List.append_assoc]⟩
        · rw [Dev.writeAll_full (by simp only; omega)]
          refine .inr ⟨rfl, rfl, by rw [List.length_append]; omega, ?_⟩
          simp only
          rw [List.take_append, List.take_of_length_le h2, List.append_assoc]
      · rw [if_neg h3]
        exact .inl ⟨rfl, by simp, by simp; omega, by simp only; omega, by simp⟩
    · rw [Dev.writeAll_full (by omega)]
      refine .inr ⟨rfl, rfl, by rw [List.length_append]; omega, ?_⟩
      simp only
      rw [List.take_append, Nat.sub_eq_zero_of_le (n := d.free) (by omega), List.take_zero, List.append_nil]
  · rw [if_neg h1]
    by_cases h3 : cap ≤ seg.length
    · rw [if_pos h3]
      have hb : buf = [] := List.length_eq_zero_iff.mp (by omega)
      subst hb
      by_cases h4 : seg.length ≤ d.free
      · rw [Dev.writeAll_ok h4]
        exact .inl ⟨rfl, by simp, by simp; omega, by simp, by simp⟩
      · rw [Dev.writeAll_full (by omega)]
        exact .inr ⟨rfl, rfl, by simpa using h4, by simp⟩
    · rw [if_neg h3]
      exact .inl ⟨rfl, by simp, rfl, by rw [List.length_append]; omega, by simp⟩

/-- Writing more after what was written already. -/
theorem Poured.trans {cap : Nat} {d : Dev} {a b : Bytes} {r r' : Dev × Bytes × Outcome Unit}
    (h : Poured cap d a r) (ho : r.2.2 = .ok ()) (h' : Poured cap r.1 (r.2.1 ++ b) r') : Poured cap d (a ++ b) r' := by
  rcases h with ⟨_, h2, h3, h4, h5⟩ | ⟨h1, _⟩
  · obtain ⟨w, hw⟩ := h5
    rcases h' with ⟨g1, g2, g3, g4, g5⟩ | ⟨g1, g2, g3, g4⟩
    · exact .inl ⟨g1, by rw [g2, ← List.append_assoc, h2, List.append_assoc], by omega, g4,
        List.IsPrefix.trans ⟨w, hw⟩ g5⟩
    · have ha : a = w ++ r.2.1 := by
        rw [← hw, List.append_assoc] at h2
        exact (List.append_cancel_left h2).symm
      have hl : r.1.written.length = d.written.length + w.length := by rw [← hw, List.length_append]
      refine .inr ⟨g1, g2, ?_, ?_⟩
      · rw [ha]; simp only [List.length_append] at g3 ⊢; omega
      · rw [g4, ← hw, ha, List.append_assoc, List.append_assoc, List.take_append (l₁ := w),
          List.take_of_length_le (l := w) (by omega)]
        congr 3; omega
  · rw [h1] at ho; simp at ho

theorem pour_poured (cap : Nat) (d : Dev) (buf : Bytes) (pieces : List Bytes) (hb : buf.length ≤ cap) :
    Poured cap d (buf ++ pieces.flatten) (pour cap d buf pieces) := by
  induction pieces generalizing d buf with
  | nil => exact .inl ⟨rfl, by simp [pour], rfl, hb, by simp [pour]⟩
  | cons seg rest ih =>
    have h1 := bufWriteAll_poured cap d buf seg hb
    rw [pour, List.flatten_cons, ← List.append_assoc]
    split
    · rename_i d1 b1 e
      rw [e] at h1
      refine h1.trans rfl (ih d1 b1 ?_)
      rcases h1 with ⟨_, _, _, h, _⟩ | ⟨h, _⟩
      · exact h
      · simp at h
    · rename_i r hr
      rcases h1 with ⟨h, _⟩ | ⟨g1, g2, g3, g4⟩
      · exact (hr _ _ (Prod.ext rfl (Prod.ext rfl h))).elim
      · refine .inr ⟨g1, g2, by rw [List.length_append]; omega, ?_⟩
        rw [g4, List.take_append (l₁ := buf ++ seg), Nat.sub_eq_zero_of_le (by omega), List.take_zero, List.append_nil]

theorem bufWriteAll_full {cap : Nat} {d : Dev} (buf seg : Bytes) (h : d.free = 0) :
    (bufWriteAll cap d buf seg).1.free = 0 ∧ (bufWriteAll cap d buf seg).1.written = d.written := by
  have key : ∀ (d : Dev) (b : Bytes), d.free = 0 → (d.writeAll b).1.free = 0 ∧ (d.writeAll b).1.written = d.written := by
    intro d b hd
    refine ⟨?_, by rw [Dev.writeAll_written, hd, List.take_zero, List.append_nil]⟩
    unfold Dev.writeAll
    split
    · simp only; omega
    · rfl
  unfold bufWriteAll
  split
  · have k1 := key d buf h
    split
    · rename_i d1 e
      rw [e] at k1
      split
      · exact ⟨(key d1 seg k1.1).1, (key d1 seg k1.1).2.trans k1.2⟩
      · exact k1
    · rename_i d1 r _ e
      rw [e] at k1
      exact k1
  · split
    · exact key d seg h
    · exact ⟨h, rfl⟩

theorem pour_full {cap : Nat} {d : Dev} (buf : Bytes) (pieces : List Bytes) (h : d.free = 0) :
    (pour cap d buf pieces).1.free = 0 ∧ (pour cap d buf pieces).1.written = d.written := by
  induction pieces generalizing d buf with
  | nil => exact ⟨h, rfl⟩
  | cons seg rest ih =>
    have h1 := bufWriteAll_full (cap := cap) buf seg h
    rw [pour]
    split
    · rename_i d1 b1 e
      rw [e] at h1
      exact ⟨(ih b1 h1.1).1, (ih b1 h1.1).2.trans h1.2⟩
    · exact h1

/-! ## Encoders -/

theorem feed_poured (e : StreamEncoder) (cap : Nat) (d : Dev) (buf : Bytes) (done segs : List Bytes)
    (hb : buf.length ≤ cap) :
    let f := e.feed cap d buf done segs
    Poured cap d (buf ++ fedOutput e done segs) (f.1, f.2.1, f.2.2.1) ∧ (f.2.2.1 = .ok () → f.2.2.2 = done ++ segs) := by
  induction segs generalizing d buf done with
  | nil => exact ⟨.inl ⟨rfl, by simp [StreamEncoder.feed, fedOutput], rfl, hb, by simp [StreamEncoder.feed]⟩,
      fun _ => by simp [StreamEncoder.feed]⟩
  | cons seg rest ih =>
    have h1 := pour_poured cap d buf (e.write done seg) hb
    simp only
    rw [StreamEncoder.feed, fedOutput, ← List.append_assoc]
    split
    · rename_i d1 b1 heq
      rw [heq] at h1
      have hb1 : b1.length ≤ cap := by
        rcases h1 with ⟨_, _, _, h, _⟩ | ⟨h, _⟩
        · exact h
        · simp at h
      obtain ⟨i1, i2⟩ := ih d1 b1 (done ++ [seg]) hb1
      exact ⟨h1.trans rfl i1, fun h => by rw [i2 h]; simp⟩
    · rename_i d1 b1 r hr heq
      rw [heq] at h1
      rcases h1 with ⟨h, _⟩ | ⟨g1, g2, g3, g4⟩
      · exact absurd h hr
      · simp only at g1 g2 g3 g4
        refine ⟨.inr ⟨g1, g2, by rw [List.length_append]; omega, ?_⟩, fun h => absurd h hr⟩
        simp only
        rw [g4, List.take_append (l₁ := buf ++ (e.write done seg).flatten), Nat.sub_eq_zero_of_le (by omega),
          List.take_zero, List.append_nil]

theorem Poured.final {cap : Nat} {d : Dev} {total : Bytes} {r : Dev × Bytes × Outcome Unit}
    (h : Poured cap d total r) : (r.1.writeAll r.2.1).1.written = d.written ++ total.take d.free := by
  rcases h with ⟨_, h2, h3, _, w, hw⟩ | ⟨_, g2, _, g4⟩
  · have ht : total = w ++ r.2.1 := by
      rw [← hw, List.append_assoc] at h2
      exact (List.append_cancel_left h2).symm
    have hl : r.1.written.length = d.written.length + w.length := by rw [← hw, List.length_append]
    rw [Dev.writeAll_written, ← hw, ht, List.append_assoc, List.take_append, List.take_of_length_le (l := w) (by omega)]
    congr 3; omega
  · rw [Dev.writeAll_written, g2, List.take_zero, List.append_nil, g4]

theorem Poured.accepted {cap : Nat} {d : Dev} {total : Bytes} {r : Dev × Bytes × Outcome Unit}
    (h : Poured cap d total r) (ho : r.2.2 = .ok ()) : total.length ≤ d.free + cap ∧ r.2.1.length ≤ cap := by
  rcases h with ⟨_, h2, h3, h4, _⟩ | ⟨g1, _⟩
  · have := congrArg List.length h2
    simp only [List.length_append] at this
    exact ⟨by omega, h4⟩
  · rw [g1] at ho; simp at ho

theorem Poured.refused {cap : Nat} {d : Dev} {total : Bytes} {r : Dev × Bytes × Outcome Unit}
    (h : Poured cap d total r) (ho : r.2.2 ≠ .ok ()) : r.2.2 = .err .other ∧ d.free < total.length ∧ r.1.free = 0 := by
  rcases h with ⟨h1, _⟩ | ⟨g1, g2, g3, _⟩
  · exact absurd h1 ho
  · exact ⟨g1, g3, g2⟩

theorem bufWriteAll_small {cap : Nat} {d : Dev} {buf seg : Bytes} (h : buf.length + seg.length < cap) :
    bufWriteAll cap d buf seg = (d, buf ++ seg, .ok ()) := by
  unfold bufWriteAll
  rw [if_neg (by omega), if_neg (by omega)]

theorem pour_small {cap : Nat} {d : Dev} {buf : Bytes} {pieces : List Bytes}
    (h : buf.length + pieces.flatten.length < cap) : pour cap d buf pieces = (d, buf ++ pieces.flatten, .ok ()) := by
  induction pieces generalizing buf with
  | nil => simp [pour]
  | cons seg rest ih =>
    rw [List.flatten_cons, List.length_append] at h
    rw [pour, bufWriteAll_small (by omega)]
    simp only
    rw [ih (by rw [List.length_append]; omega), List.flatten_cons, List.append_assoc]

theorem feed_small {e : StreamEncoder} {cap : Nat} {d : Dev} {buf : Bytes} {done segs : List Bytes}
    (h : buf.length + (fedOutput e done segs).length < cap) :
    e.feed cap d buf done segs = (d, buf ++ fedOutput e done segs, .ok (), done ++ segs) := by
  induction segs generalizing buf done with
  | nil => simp [StreamEncoder.feed, fedOutput]
  | cons seg rest ih =>
    rw [fedOutput, List.length_append] at h
    rw [StreamEncoder.feed, pour_small (by omega)]
    simp only
    rw [ih (by rw [List.length_append]; omega), fedOutput]
    simp

/-- What is in the file is as much of the output as there was room for. What is accepted before the drop exceeds the
room by no more than the buffer, and with an encoder that unwraps errors so does everything. Nothing is refused if
there is room for all, or if what can be refused is below the capacity of the buffer. -/
theorem run_spec (e : StreamEncoder) (cap free : Nat) (segs : List Bytes) :
    (e.run cap ⟨free, []⟩ segs).1 = (output e segs).take free ∧
    ((e.run cap ⟨free, []⟩ segs).2 = .ok () → (outputBefore e segs).length ≤ free + cap ∧
      (e.unwraps = true → (output e segs).length ≤ free + cap)) ∧
    ((output e segs).length ≤ free → (e.run cap ⟨free, []⟩ segs).2 = .ok ()) ∧
    ((outputBefore e segs).length < cap → (e.unwraps = true → (output e segs).length < cap) →
      (e.run cap ⟨free, []⟩ segs).2 = .ok ()) := by
  have hs := pour_poured cap ⟨free, []⟩ [] e.start (by simp)
  rw [List.nil_append] at hs
  unfold StreamEncoder.run
  split
  · rename_i d1 b1 hp
    rw [hp] at hs
    obtain ⟨f1, f2⟩ := feed_poured e cap d1 b1 [] segs (hs.accepted rfl).2
    have hf := hs.trans rfl f1
    generalize hF : e.feed cap d1 b1 [] segs = F at f1 f2 hf
    obtain ⟨d2, b2, r2, done⟩ := F
    simp only at f2 hf ⊢
    by_cases hr : r2 = .ok ()
    · subst hr
      have hd := f2 rfl
      rw [List.nil_append] at hd
      subst hd
      have hg := hf.trans rfl (pour_poured cap d2 b2 (e.finish done) (hf.accepted rfl).2)
      refine ⟨hg.final, fun ho => ⟨(hf.accepted rfl).1, fun hu => ?_⟩, fun hroom => ?_, fun h1 h2 => ?_⟩
      · by_cases hx : (pour cap d2 b2 (e.finish done)).2.2 = .ok ()
        · exact (hg.accepted hx).1
        · rw [if_pos ⟨hu, hx⟩] at ho; simp at ho
      · by_cases hx : (pour cap d2 b2 (e.finish done)).2.2 = .ok ()
        · rw [if_neg (fun h => h.2 hx)]
        · have := (hg.refused hx).2.1
          simp only at this
          have e1 : (output e done) = e.start.flatten ++ fedOutput e [] done ++ (e.finish done).flatten := rfl
          rw [e1] at hroom
          omega
      · by_cases hu : e.unwraps = true
        · have h3 := h2 hu
          unfold output outputBefore at h3
          simp only [List.length_append] at h3
          rw [pour_small (by simp only [List.length_nil, List.length_append]; omega)] at hp
          simp only [List.nil_append, Prod.mk.injEq, and_true] at hp
          obtain ⟨rfl, rfl⟩ := hp
          rw [feed_small (by omega)] at hF
          simp only [List.nil_append, Prod.mk.injEq, and_true] at hF
          obtain ⟨rfl, rfl⟩ := hF
          rw [pour_small (by simp only [List.length_nil, List.length_append]; omega)]
          rw [if_neg (by simp)]
        · rw [if_neg (fun h => hu h.1)]
    · obtain ⟨g1, g2, g3⟩ := hf.refused hr
      simp only at g1 g2 g3
      have hfull := pour_full (cap := cap) b2 (e.finish done) g3
      refine ⟨?_, fun ho => ?_, fun hroom => ?_, fun h1 h2 => ?_⟩
      · rw [Dev.writeAll_written, hfull.1, List.take_zero, List.append_nil, hfull.2]
        have := hf.final
        simp only at this
        rw [Dev.writeAll_written, g3, List.take_zero, List.append_nil] at this
        rw [this, List.nil_append, output, outputBefore, List.take_append (l₂ := (e.finish segs).flatten),
          Nat.sub_eq_zero_of_le (by omega), List.take_zero, List.append_nil]
      · split at ho
        · simp at ho
        · exact absurd ho hr
      · unfold output outputBefore at hroom
        simp only [List.length_append] at hroom g2
        omega
      · unfold outputBefore at h1
        simp only [List.length_append] at h1
        rw [pour_small (by simp only [List.length_nil, List.length_append]; omega)] at hp
        simp only [List.nil_append, Prod.mk.injEq, and_true] at hp
        obtain ⟨rfl, rfl⟩ := hp
        rw [feed_small (by omega)] at hF
        simp only [Prod.mk.injEq] at hF
        exact absurd hF.2.2.1.symm hr
  · rename_i d1 b1 r hr hp
    have hx : r ≠ .ok () := fun h => hr h
    rw [hp] at hs
    obtain ⟨g1, g2, g3⟩ := hs.refused hx
    simp only at g1 g2 g3
    refine ⟨?_, fun ho => by simp at ho, fun hroom => ?_, fun h1 _ => ?_⟩
    · rw [hs.final]
      simp only
      rw [List.nil_append, output, outputBefore, List.append_assoc, List.take_append (l₁ := e.start.flatten),
        Nat.sub_eq_zero_of_le (by omega), List.take_zero, List.append_nil]
    · unfold output outputBefore at hroom
      simp only [List.length_append] at hroom
      omega
    · unfold outputBefore at h1
      simp only [List.length_append] at h1
      rw [pour_small (by simp only [List.length_nil, List.length_append]; omega)] at hp
      simp only [Prod.mk.injEq] at hp
      exact absurd hp.2.2.symm hx

/-! ## C53 -/

/-- The chunk's bytes are handed to the encoder, or the call ends before. -/
theorem writeChunkBytesStream_eq {free : Nat} {e : StreamEncoder} {env : Env} {m : ArrayMetadata} {t : RsType}
    {c : DataChunk t} (he : EncoderOf e (codecOf env.codecs m.compressor)) :
    (∃ segs, writeData env.native m.dataType c.data = .ok segs ∧
      writeChunkBytes env.codecs env.native m c = (output e segs, .ok ()) ∧
      writeChunkBytesStream free e env.native m c = e.run 8192 ⟨free, []⟩ segs) ∨
    ((writeChunkBytes env.codecs env.native m c).2 ≠ .ok () ∧
      writeChunkBytesStream free e env.native m c = writeChunkBytes env.codecs env.native m c) := by
  unfold writeChunkBytesStream writeChunkBytes
  cases checkArrayType env.native m t with
  | err e => exact .inr ⟨by simp, rfl⟩
  | panic => exact .inr ⟨by simp, rfl⟩
  | ok u =>
    simp only
    by_cases hn : c.numElements ≠ m.chunkNumElements
    · rw [if_pos hn, if_pos hn]
      exact .inr ⟨by simp, rfl⟩
    · rw [if_neg hn, if_neg hn]
      cases writeData env.native m.dataType c.data with
      | err e => exact .inr ⟨by simp, rfl⟩
      | panic => exact .inr ⟨by simp, rfl⟩
      | ok segs => exact .inl ⟨_, rfl, he segs, rfl⟩

/-- **C53 (partial), every compressor.** If there is room for the compressed chunk, `write_chunk` does what it does on an
unlimited device. If it returns `Ok`, the file holds the bytes that fitted, and what the encoder wrote before it was
dropped (everything, if it unwraps errors then) exceeds the room by at most 8192 bytes. Missing: that all bytes fitted,
see `C53_violated_compressed`. -/
theorem C53_partial_compressed (free : Nat) (e : StreamEncoder) (env : Env) (h : Hier) (path : Str) (m : ArrayMetadata)
    {t : RsType} (c : DataChunk t) (fs : Fs) (he : EncoderOf e (codecOf env.codecs m.compressor)) :
    ((writeChunkBytes env.codecs env.native m c).1.length ≤ free →
      writeChunkStream free e env h path m c fs = writeChunk env h path m c fs) ∧
    (∀ fs', writeChunkStream free e env h path m c fs = (.ok (), fs') →
      storeGet h (chunkKey path m c.gridPosition) fs' =
        (.ok (some ((writeChunkBytes env.codecs env.native m c).1.take free)), fs') ∧
      (∀ segs, writeData env.native m.dataType c.data = .ok segs → (outputBefore e segs).length ≤ free + 8192) ∧
      (e.unwraps = true → (writeChunkBytes env.codecs env.native m c).1.length ≤ free + 8192)) := by
  rcases writeChunkBytesStream_eq (free := free) (c := c) he with ⟨segs, h0, h1, h2⟩ | ⟨h1, h2⟩
  · obtain ⟨r1, r2, r3, _⟩ := run_spec e 8192 free segs
    constructor
    · intro hroom
      rw [h1] at hroom
      unfold writeChunkStream writeChunk
      rw [h1, h2]
      congr 1
      exact Prod.ext (by rw [r1, List.take_of_length_le hroom]) (r3 hroom)
    · intro fs' hw
      have hok := storeSet_result_ok hw
      have hg := storeGet_of_storeSet hw
      rw [h2] at hok hg
      rw [r1] at hg
      rw [h1]
      refine ⟨hg, fun segs' h' => ?_, fun hu => (r2 hok).2 hu⟩
      rw [h0] at h'
      cases h'
      exact (r2 hok).1
  · constructor
    · intro _
      unfold writeChunkStream writeChunk
      rw [h2]
    · intro fs' hw
      have hok := storeSet_result_ok hw
      rw [h2] at hok
      exact absurd hok h1

/-- **C53** for the two encoders that are in the crate itself and not in a library, without compression and `lz_pure`
with a library that accepts everything. -/
theorem C53_partial_builtin (free : Nat) (env : Env) (h : Hier) (path : Str) (m : ArrayMetadata) {t : RsType}
    (c : DataChunk t) (fs : Fs) (lz : LzFear) (bs : Int) (pieces : Bytes → List Bytes) (hp : ∀ b, (pieces b).flatten = b)
    (hlz : ∀ b, (lz.frame (i32AsUsize bs) b).2 = .ok ()) (e : StreamEncoder)
    (he : e = rawEncoder ∧ codecOf env.codecs m.compressor = rawCodec ∨
      e = lzPureEncoder lz (i32AsUsize bs) pieces ∧ codecOf env.codecs m.compressor = lzPureCodec lz bs) :
    ((writeChunkBytes env.codecs env.native m c).1.length ≤ free →
      writeChunkStream free e env h path m c fs = writeChunk env h path m c fs) ∧
    (∀ fs', writeChunkStream free e env h path m c fs = (.ok (), fs') →
      (writeChunkBytes env.codecs env.native m c).1.length ≤ free + 8192 ∧
      storeGet h (chunkKey path m c.gridPosition) fs' =
        (.ok (some ((writeChunkBytes env.codecs env.native m c).1.take free)), fs')) := by
  have he' : EncoderOf e (codecOf env.codecs m.compressor) := by
    rcases he with ⟨rfl, h2⟩ | ⟨rfl, h2⟩ <;> rw [h2]
    · exact rawEncoder_of
    · exact lzPureEncoder_of hp hlz
  have hf : ∀ segs, e.finish segs = [] := by rcases he with ⟨rfl, _⟩ | ⟨rfl, _⟩ <;> exact fun _ => rfl
  obtain ⟨a, b⟩ := C53_partial_compressed free e env h path m c fs he'
  refine ⟨a, fun fs' hw => ⟨?_, (b fs' hw).1⟩⟩
  rcases writeChunkBytesStream_eq (free := free) (c := c) he' with ⟨segs, h0, h1, h2⟩ | ⟨h1, h2⟩
  · have := (b fs' hw).2.1 segs h0
    rw [h1]
    simpa [output, hf] using this
  · exact absurd (h2 ▸ storeSet_result_ok (show storeSet h _ (writeChunkBytesStream free e env.native m c) fs = _ from hw)) h1

/-- Room for all of the chunk of two elements but one byte: `Ok`, and that byte is missing. -/
example : let w := writeChunkStream 3 rawEncoder Demo.env Demo.hier Demo.path Demo.arr
            (⟨[0], [1#16, 2#16]⟩ : DataChunk .u16) Demo.emptyFs
    w.1 = .ok () ∧ (storeGet Demo.hier (chunkKey Demo.path Demo.arr [0]) w.2).1 =
      .ok (some ((writeChunkBytes Demo.env.codecs Demo.env.native Demo.arr (⟨[0], [1#16, 2#16]⟩ : DataChunk .u16)).1.take 3)) := by
  have hok : (writeChunkStream 3 rawEncoder Demo.env Demo.hier Demo.path Demo.arr (⟨[0], [1#16, 2#16]⟩ : DataChunk .u16)
      Demo.emptyFs).1 = .ok () := by decide +kernel
  exact ⟨hok, congrArg Prod.fst ((C53_partial_builtin 3 Demo.env Demo.hier Demo.path Demo.arr
    (⟨[0], [1#16, 2#16]⟩ : DataChunk .u16) Demo.emptyFs ⟨fun _ b => (b, .ok ()), fun b => .ok ⟨b, none⟩⟩ 0 (fun b => [b])
    (fun b => by simp) (fun _ => rfl) rawEncoder (.inl ⟨rfl, rfl⟩)).2 _ (Prod.ext hok rfl)).2⟩

/-- **C53 is violated** with every compressor, for every chunk that does not fit on the device and whose encoder writes
less than 8192 bytes before it is dropped (with `lz4`, which unwraps errors on drop: altogether): if writing it elsewhere
succeeds, it is reported as written here too, but the file ends after the bytes that fitted. -/
theorem C53_violated_compressed (free : Nat) (e : StreamEncoder) (env : Env) (h : Hier) (path : Str) (m : ArrayMetadata)
    {t : RsType} (c : DataChunk t) (fs fs1 : Fs) (he : EncoderOf e (codecOf env.codecs m.compressor))
    (hw : writeChunk env h path m c fs = (.ok (), fs1))
    (hbefore : ∀ segs, writeData env.native m.dataType c.data = .ok segs → (outputBefore e segs).length < 8192)
    (hall : e.unwraps = true → (writeChunkBytes env.codecs env.native m c).1.length < 8192)
    (hfull : free < (writeChunkBytes env.codecs env.native m c).1.length) :
    ∃ fs' b, writeChunkStream free e env h path m c fs = (.ok (), fs') ∧
      storeGet h (chunkKey path m c.gridPosition) fs1 = (.ok (some b), fs1) ∧ free < b.length ∧
      storeGet h (chunkKey path m c.gridPosition) fs' = (.ok (some (b.take free)), fs') := by
  rcases writeChunkBytesStream_eq (free := free) (c := c) he with ⟨segs, h0, h1, h2⟩ | ⟨h1, h2⟩
  · obtain ⟨r1, _, _, r4⟩ := run_spec e 8192 free segs
    rw [h1] at hall hfull
    have hok := r4 (hbefore segs h0) hall
    have hv : writeChunkBytesStream free e env.native m c = ((output e segs).take free, .ok ()) := by
      rw [h2]; exact Prod.ext r1 hok
    obtain ⟨fs', hw'⟩ : ∃ fs', writeChunkStream free e env h path m c fs = (.ok (), fs') := by
      unfold writeChunkStream
      unfold writeChunk at hw
      unfold storeSet at hw ⊢
      split at hw
      · simp at hw
      · simp at hw
      · simp only at hw ⊢
        split at hw
        · simp at hw
        · simp at hw
        · split at hw
          · simp at hw
          · simp at hw
          · exact ⟨_, by rw [hv]⟩
    have hg := storeGet_of_storeSet hw
    have hg' := storeGet_of_storeSet hw'
    rw [h1] at hg
    rw [hv] at hg'
    exact ⟨fs', output e segs, hw', hg, hfull, hg'⟩
  · exact absurd (storeSet_result_ok hw) h1

/-! ## Examples -/

/-- An encoder that keeps everything until it is dropped, as `bzip2` does with less than a block. -/
def Demo.holdEncoder (unwraps : Bool) : StreamEncoder where
  start := if unwraps then [[4, 34]] else []
  write _ _ := []
  finish segs := [segs.flatten]
  unwraps := unwraps

/-- An array of `n` elements in one chunk. -/
def Demo.arrHold (n : Nat) : ArrayMetadata := { Demo.arr with shape := [n], chunkShape := [n], compressor := .bzip2 9 }

theorem Demo.fedOutput_hold (u : Bool) (done segs : List Bytes) : fedOutput (Demo.holdEncoder u) done segs = [] := by
  induction segs generalizing done with
  | nil => rfl
  | cons s r ih => rw [fedOutput, ih]; rfl

/-- The libraries of `Demo.env` write the bytes themselves. -/
theorem Demo.holdEncoder_of : EncoderOf (Demo.holdEncoder false) (codecOf Demo.env.codecs (.bzip2 9)) := by
  intro segs
  rw [output, outputBefore, Demo.fedOutput_hold]
  simp [Demo.holdEncoder, codecOf, Demo.env, rawCodec]

/-- However large the chunk: on a full device all of it is lost, and `write_chunk` returns `Ok`. -/
theorem C53_violated_large (n : Nat) (h0 : 0 < n) (hn : n < 2 ^ 32) :
    let c : DataChunk .u16 := ⟨[0], List.replicate n 7#16⟩
    ∃ fs1 fs' b, writeChunk Demo.env Demo.hier Demo.path (Demo.arrHold n) c Demo.emptyFs = (.ok (), fs1) ∧
      storeGet Demo.hier (chunkKey Demo.path (Demo.arrHold n) [0]) fs1 = (.ok (some b), fs1) ∧ b.length = n * 2 ∧
      writeChunkStream 0 (Demo.holdEncoder false) Demo.env Demo.hier Demo.path (Demo.arrHold n) c Demo.emptyFs
        = (.ok (), fs') ∧
      storeGet Demo.hier (chunkKey Demo.path (Demo.arrHold n) [0]) fs' = (.ok (some []), fs') := by
  intro c
  have hlen : c.data.length = n := List.length_replicate
  have hw := ((C67 Demo.env Demo.hier Demo.path Demo.emptyFs Demo.emptyFs_wf (by decide) (by unfold GoodSuffix; decide)
    (by decide)).2.2.2.2
    (Demo.arrHold n) .u16 c (.uint .B2 .big) (.inl rfl) rfl rfl (by rw [hlen]; simp [Demo.arrHold]) (by simpa [Demo.arrHold] using hn)
    (fun segs => rfl)).mpr (Demo.writable_empty (by simp [chunkLoc, dataLoc]))
  obtain ⟨fs1, hw⟩ : ∃ fs1, writeChunk Demo.env Demo.hier Demo.path (Demo.arrHold n) c Demo.emptyFs = (.ok (), fs1) :=
    ⟨_, Prod.ext hw rfl⟩
  have hl : (writeChunkBytes Demo.env.codecs Demo.env.native (Demo.arrHold n) c).1.length = n * 2 := by
    obtain ⟨d, segs, _, _, _, hs, he⟩ := writeChunkBytes_ok (storeSet_result_ok hw)
    rw [he, show ((codecOf Demo.env.codecs (Demo.arrHold n).compressor).encode segs).1 = segs.flatten from rfl, hs,
      flatMap_elBytes_length]
    rw [hlen]; rfl
  obtain ⟨fs', b, h1, h2, _, h3⟩ := C53_violated_compressed 0 (Demo.holdEncoder false) Demo.env Demo.hier Demo.path
    (Demo.arrHold n) c Demo.emptyFs fs1 Demo.holdEncoder_of hw
    (fun segs _ => by rw [outputBefore, Demo.fedOutput_hold]; simp [Demo.holdEncoder]) (by simp [Demo.holdEncoder])
    (by omega)
  have hg := storeGet_of_storeSet hw
  refine ⟨fs1, fs', b, hw, h2, ?_, h1, h3⟩
  rw [h2] at hg
  simp only [Prod.mk.injEq, Outcome.ok.injEq, Option.some.injEq, and_true] at hg
  rw [hg, hl]

set_option maxRecDepth 20000 in
/-- With errors unwrapped on drop and a buffer of 4 bytes: the header and three bytes fit in the buffer and the room,
six do not and the drop panics; if errors are ignored it does not. -/
example : (Demo.holdEncoder true).run 4 ⟨1, []⟩ [[1, 2, 3]] = ([4], .panic) ∧
    (Demo.holdEncoder true).run 4 ⟨2, []⟩ [[1, 2, 3]] = ([4, 34], .ok ()) ∧
    (Demo.holdEncoder true).run 4 ⟨5, []⟩ [[1, 2, 3], [4, 5]] = ([4, 34, 1, 2, 3], .panic) ∧
    (Demo.holdEncoder false).run 4 ⟨4, []⟩ [[1, 2, 3], [4, 5]] = ([1, 2, 3, 4], .ok ()) := by decide +kernel

end Zarr
