import Verif.Props.NdRead
/-!
# Exact results where a property is violated (C16, C26)

`C16_partial` and `C26_partial` say when the properties hold. The theorems here say what happens for
every box: which positions `bounded_coord_iter` yields and exactly when `read_ndarray` panics.
-/

namespace Zarr

open Spec

/-- Which positions along one axis are visited: `s` the length of the array, `k` the chunk size, `o`
and `w` the start and the length of the box. If the box has a point before the end of the array: the
chunks that meet the box before the end of the array. Otherwise: the chunk around the start of the
box, if that start is not a multiple of the chunk size. -/
def Spec.AxisVisits (s k o w x : Nat) : Prop :=
  if o < s ∧ w ≠ 0 then x * k < min s (o + w) ∧ o < (x + 1) * k else ¬ k ∣ o ∧ x = o / k

theorem axis_iff {s k o w x : Nat} (hk : k ≠ 0) :
    AxisVisits s k o w x ↔ o < (x + 1) * k ∧ x * k < max o (min s (o + w)) := by
  unfold AxisVisits
  split
  · rename_i h
    have h1 : max o (min s (o + w)) = min s (o + w) := by omega
    rw [h1]
    exact ⟨fun h => ⟨h.2, h.1⟩, fun h => ⟨h.2, h.1⟩⟩
  · rename_i h
    have h1 : max o (min s (o + w)) = o := by
      by_cases h2 : o < s
      · have : w = 0 := by
          by_cases hw : w = 0
          · exact hw
          · exact absurd ⟨h2, hw⟩ h
        omega
      · omega
    rw [h1]
    constructor
    · rintro ⟨h2, rfl⟩
      have h3 : o / k * k ≤ o := Nat.div_mul_le_self o k
      have h4 : o < (o / k + 1) * k := by
        have := Nat.lt_mul_div_succ o (Nat.pos_of_ne_zero hk)
        rwa [Nat.mul_comm] at this
      refine ⟨h4, Nat.lt_of_le_of_ne h3 ?_⟩
      intro he
      exact h2 ⟨o / k, by rw [Nat.mul_comm]; exact he.symm⟩
    · rintro ⟨h2, h3⟩
      have hx : x = o / k := by
        apply Nat.le_antisymm
        · exact (Nat.le_div_iff_mul_le (Nat.pos_of_ne_zero hk)).mpr (Nat.le_of_lt h3)
        · exact Nat.lt_succ_iff.mp ((Nat.div_lt_iff_lt_mul (Nat.pos_of_ne_zero hk)).mpr h2)
      refine ⟨?_, hx⟩
      rintro ⟨y, rfl⟩
      rw [Nat.mul_div_cancel_left _ (Nat.pos_of_ne_zero hk)] at hx
      subst hx
      rw [Nat.mul_comm] at h3
      exact Nat.lt_irrefl _ h3

/-- Along every axis the position is visited. -/
def Spec.Visits (m : ArrayMetadata) (b : BBox) (c : List Nat) : Prop :=
  c.length = m.shape.length ∧ ∀ i s k o w x : Nat, m.shape[i]? = some s → m.chunkShape[i]? = some k →
    b.offset[i]? = some o → b.shape[i]? = some w → c[i]? = some x → AxisVisits s k o w x

theorem touches_iff {s k o w c : List Nat} (hk : ∀ x ∈ k, x ≠ 0) (h1 : s.length = k.length)
    (h2 : o.length = s.length) (h3 : w.length = s.length) :
    Touches s k o w c ↔ c.length = s.length ∧ ∀ i a b d e f : Nat, s[i]? = some a →
      k[i]? = some b → o[i]? = some d → w[i]? = some e → c[i]? = some f → AxisVisits a b d e f := by
  induction s generalizing k o w c with
  | nil =>
    cases k <;> cases o <;> cases w <;> simp at h1 h2 h3
    cases c <;> simp [Touches]
  | cons a s ih =>
    cases k <;> cases o <;> cases w <;> simp at h1 h2 h3
    rename_i b k d o e w
    cases c with
    | nil => simp [Touches]
    | cons f c =>
      have hb := hk b (by simp)
      simp only [Touches]
      rw [ih (fun x hx => hk x (by simp [hx])) h1 h2 h3, ← axis_iff hb]
      constructor
      · rintro ⟨p, q, r⟩
        refine ⟨by simp [q], ?_⟩
        intro i a' b' d' e' f' ha hb' hd he hf
        cases i with
        | zero =>
          simp only [List.getElem?_cons_zero, Option.some.injEq] at ha hb' hd he hf
          subst ha hb' hd he hf
          exact p
        | succ i =>
          simp only [List.getElem?_cons_succ] at ha hb' hd he hf
          exact r i _ _ _ _ _ ha hb' hd he hf
      · rintro ⟨q, r⟩
        refine ⟨r 0 a b d e f rfl rfl rfl rfl rfl, by simpa using q, ?_⟩
        intro i a' b' d' e' f' ha hb' hd he hf
        exact r (i + 1) a' b' d' e' f' (by simpa using ha) (by simpa using hb') (by simpa using hd)
          (by simpa using he) (by simpa using hf)

/-- **C16 (exact).** For every box, what `bounded_coord_iter` yields: in strictly increasing order,
the positions visited along every axis. -/
theorem C16_exact (m : ArrayMetadata) (b : BBox) (hl : m.shape.length = m.chunkShape.length)
    (hk : ∀ k ∈ m.chunkShape, k ≠ 0) (hn : m.shape ≠ [])
    (hb : b.offset.length = m.shape.length) (hb' : b.shape.length = m.shape.length) :
    ∃ it xs, m.boundedCoordIter b = .ok it ∧ Yields it xs ∧ xs.Pairwise (· < ·) ∧
      ∀ c, c ∈ xs ↔ Visits m b c := by
  obtain ⟨it, xs, h1, h2, h3, _, _⟩ := C16_partial m b hl hk hn hb hb'
  refine ⟨it, xs, h1, h2, h3, ?_⟩
  intro c
  have hxs := yields_iff.mp h2
  subst hxs
  rw [mem_boundedCoordIter hl (by omega) hn h1, touches_iff hk hl hb hb']
  exact Iff.rfl

example : ∃ it, ({ Demo.arr with shape := [100, 7], chunkShape := [50, 3] } :
    ArrayMetadata).boundedCoordIter ⟨[175, 2], [10, 2]⟩ = .ok it ∧ Yields it [[3, 0], [3, 1]] :=
  ⟨_, rfl, yields_iff.mpr (by decide)⟩

/-! ## C26 -/

/-- Along this axis some position is visited. -/
def Spec.AxisMet (s k o w : Nat) : Prop := (o < s ∧ w ≠ 0) ∨ ¬ k ∣ o

/-- The chunk around the start `o` begins at or beyond the end `s` of the array; if the length is
one short of a multiple of the chunk size, it begins beyond the following multiple too. -/
def Spec.AxisBeyond (s k o : Nat) : Prop :=
  s ≤ o / k * k ∧ (s % k = k - 1 → s + k ≤ o / k * k)

theorem axisMet_iff {s k o w : Nat} (hk : k ≠ 0) : AxisMet s k o w ↔ ∃ x, AxisVisits s k o w x := by
  constructor
  · intro h
    refine ⟨o / k, ?_⟩
    unfold AxisVisits
    split
    · rename_i h1
      have h3 : o / k * k ≤ o := Nat.div_mul_le_self o k
      have h4 : o < (o / k + 1) * k := by
        have := Nat.lt_mul_div_succ o (Nat.pos_of_ne_zero hk)
        rwa [Nat.mul_comm] at this
      exact ⟨by omega, h4⟩
    · rename_i h1
      exact ⟨h.resolve_left h1, rfl⟩
  · rintro ⟨x, hx⟩
    unfold AxisVisits at hx
    split at hx
    · rename_i h1; exact .inl h1
    · exact .inr hx.1

theorem codeCeil_le {s k c : Nat} (hk : k ≠ 0) :
    codeCeil s k ≤ c ↔ s ≤ c * k ∧ (s % k = k - 1 → s + k ≤ c * k) := by
  have hle : ∀ n, (s + k - 1) / k ≤ n ↔ s ≤ n * k := by
    intro n
    have := lt_ceil_iff (a := s) (c := n) hk
    omega
  rw [codeCeil_eq hk]
  generalize (s + k - 1) / k = q at hle
  split
  · rename_i h
    constructor
    · intro h1
      have h2 : q ≤ c - 1 := by omega
      have h3 := (hle _).mp h2
      have h4 : c - 1 + 1 = c := by omega
      have h5 : c * k = (c - 1) * k + k := by
        conv => lhs; rw [← h4, Nat.add_mul, Nat.one_mul]
      exact ⟨by omega, fun _ => by omega⟩
    · rintro ⟨_, h1⟩
      have h1 := h1 h
      have hc : c ≠ 0 := by
        rintro rfl
        simp at h1
        omega
      have h4 : c - 1 + 1 = c := by omega
      have h5 : c * k = (c - 1) * k + k := by
        conv => lhs; rw [← h4, Nat.add_mul, Nat.one_mul]
      have := (hle (c - 1)).mpr (by omega)
      omega
  · rename_i h
    rw [Nat.add_zero, hle]
    exact ⟨fun h1 => ⟨h1, fun h2 => absurd h2 h⟩, fun h1 => h1.1⟩

/-- A list of choices, one per axis. -/
theorem exists_touch {s k o w : List Nat} (hk : ∀ x ∈ k, x ≠ 0) (h1 : s.length = k.length)
    (h2 : o.length = s.length) (h3 : w.length = s.length)
    (h : ∀ i a b d e : Nat, s[i]? = some a → k[i]? = some b → o[i]? = some d → w[i]? = some e →
      AxisMet a b d e) : ∃ c, Touches s k o w c := by
  induction s generalizing k o w with
  | nil =>
    cases k <;> cases o <;> cases w <;> simp at h1 h2 h3
    exact ⟨[], trivial⟩
  | cons a s ih =>
    cases k <;> cases o <;> cases w <;> simp at h1 h2 h3
    rename_i b k d o e w
    obtain ⟨c, hc⟩ := ih (fun x hx => hk x (by simp [hx])) h1 h2 h3
      (fun i a b d e ha hb hd he => h (i + 1) a b d e (by simpa using ha) (by simpa using hb)
        (by simpa using hd) (by simpa using he))
    have hb := hk b (by simp)
    obtain ⟨x, hx⟩ := (axisMet_iff hb).mp (h 0 a b d e rfl rfl rfl rfl)
    exact ⟨x :: c, (axis_iff hb).mp hx, hc⟩

theorem bounded_get {s k c : List Nat} (hb : Bounded s k c) {i a b f : Nat} (ha : s[i]? = some a)
    (hk : k[i]? = some b) (hc : c[i]? = some f) : f < codeCeil a b := by
  induction s generalizing k c i with
  | nil => simp at ha
  | cons x s ih =>
    cases k <;> cases c <;> simp only [Bounded] at hb
    cases i with
    | zero => simp_all
    | succ i => exact ih hb.2 (by simpa using ha) (by simpa using hk) (by simpa using hc)

theorem bounded_of_get {s k c : List Nat} (h1 : s.length = k.length) (h2 : c.length = s.length)
    (h : ∀ i a b f : Nat, s[i]? = some a → k[i]? = some b → c[i]? = some f → f < codeCeil a b) :
    Bounded s k c := by
  induction s generalizing k c with
  | nil => cases k <;> cases c <;> simp_all [Bounded]
  | cons x s ih =>
    cases k <;> cases c <;> simp at h1 h2
    exact ⟨h 0 _ _ _ rfl rfl rfl, ih h1 h2 (fun i a b f ha hb hf => h (i + 1) a b f
      (by simpa using ha) (by simpa using hb) (by simpa using hf))⟩

theorem look_out {env : Env} {h : Hier} {path : Str} {m : ArrayMetadata} {t : RsType} {fs : Fs}
    {c : List Nat} (hl : m.shape.length = m.chunkShape.length) (hk : ∀ k ∈ m.chunkShape, k ≠ 0)
    (hc : c.length = m.shape.length) (hb : ¬ Bounded m.shape m.chunkShape c) :
    look env h path m t fs c = .panic := by
  have h1 : m.inBounds c = .ok false := by
    have h2 : m.inBounds c ≠ .ok true := fun h3 => hb ((inBounds_iff hl hk).mp h3)
    unfold ArrayMetadata.inBounds at h2 ⊢
    rw [if_pos hc.symm] at h2 ⊢
    rw [gridExtent_eq hk] at h2 ⊢
    simpa using h2
  simp [look, readChunk, M.bind_apply, M.lift_apply, assertInBounds, h1]

/-- **C26 (exact).** `read_ndarray` panics exactly when the element type can hold the fill value, the
box has the dimension of the array, along every axis some chunk is visited, and along some axis the
box starts in a chunk beyond the grid. Assumed as in `C26_partial`: nonzero chunk sizes, chunks of
fewer than 2^32 elements, a data type with a known size, a decoder that does not panic. -/
theorem C26_exact (env : Env) (h : Hier) (path : Str) (m : ArrayMetadata) (t : RsType)
    (bbox : BBox) (fs : Fs) (d : DataType) (hl : m.shape.length = m.chunkShape.length)
    (hk : ∀ k ∈ m.chunkShape, k ≠ 0) (hsmall : m.chunkShape.prod < 2 ^ 32)
    (heff : effective m.dataType = some d)
    (hcodec : ∀ b, (codecOf env.codecs m.compressor).decode b ≠ .panic)
    (hb : BBox.new bbox.offset bbox.shape = .ok bbox) :
    (readNdarray env h path m t bbox fs).1 = .panic ↔
      (∃ v, effectiveFillValue env m t = .ok v) ∧ bbox.offset.length = m.shape.length ∧
      (∀ i s k o w : Nat, m.shape[i]? = some s → m.chunkShape[i]? = some k →
        bbox.offset[i]? = some o → bbox.shape[i]? = some w → AxisMet s k o w) ∧
      (∃ i s k o : Nat, m.shape[i]? = some s ∧ m.chunkShape[i]? = some k ∧
        bbox.offset[i]? = some o ∧ AxisBeyond s k o) := by
  have hb' := BBox.new_ok hb
  rw [readNdarray_one]
  cases hf : effectiveFillValue env m t with
  | err e => simp
  | panic => exact absurd hf fill_no_panic
  | ok fill =>
    rw [Outcome.bind_ok, readNdarrayInto_one]
    have hx : ((readNdarrayIntoWithBuffer env h path m t bbox (NdArr.fromElem bbox.shape fill) none
        fs).1 >>= fun r => Outcome.ok r.1) = .panic ↔
        (readNdarrayIntoWithBuffer env h path m t bbox (NdArr.fromElem bbox.shape fill) none
        fs).1 = .panic := by
      cases (readNdarrayIntoWithBuffer env h path m t bbox (NdArr.fromElem bbox.shape fill) none
        fs).1 <;> simp
    rw [hx]
    by_cases hdim : bbox.offset.length = m.shape.length
    · obtain ⟨it, hit⟩ := boundedCoordIter_exists hdim hk
      rw [readInto_eq hdim rfl (by omega) hit]
      have hlen := bounded_lengths hl hb' hit
      constructor
      · intro hp
        have hex : ∃ c ∈ it.rest, look env h path m t fs c = .panic := by
          by_cases hex : ∃ c ∈ it.rest, look env h path m t fs c = .panic
          · exact hex
          · exact absurd hp (readLoop_no_panic hb' (by omega) hsmall it.rest
              (fun c hc => by rw [hlen c hc]; omega) _ none rfl
              (fun c hc hpan => hex ⟨c, hc, hpan⟩))
        obtain ⟨c, hc, hpan⟩ := hex
        have hn : m.shape ≠ [] := by
          intro hn
          obtain ⟨_, _, h3, _⟩ := boundedCoordIter_ok hl hb' hit
          rw [h3, hn] at hc
          simp [boundedRanges, isectLoop, multiCartesian] at hc
        have ht := (touches_iff hk hl hdim (by omega)).mp ((mem_boundedCoordIter hl hb' hn hit).mp hc)
        have hnb : ¬ Bounded m.shape m.chunkShape c := by
          intro hbd
          exact look_no_panic ((inBounds_iff hl hk).mpr hbd)
            (by rw [effective_iff.mpr heff]; simp) hcodec hpan
        refine ⟨⟨_, rfl⟩, hdim, ?_, ?_⟩
        · intro i s k o w hs hk' ho hw
          have hi : i < c.length := by
            rw [ht.1]
            exact (List.getElem?_eq_some_iff.mp hs).1
          exact (axisMet_iff (hk k (List.mem_of_getElem? hk'))).mpr
            ⟨c[i], ht.2 i s k o w _ hs hk' ho hw (List.getElem?_eq_getElem hi)⟩
        · apply Classical.byContradiction
          intro hno
          refine hnb (bounded_of_get hl ht.1 ?_)
          intro i s k f hs hk' hf
          have hk0 := hk k (List.mem_of_getElem? hk')
          have hi := (List.getElem?_eq_some_iff.mp hs).1
          have hio : i < bbox.offset.length := by omega
          have hiw : i < bbox.shape.length := by omega
          have hv := ht.2 i s k _ _ f hs hk' (List.getElem?_eq_getElem hio)
            (List.getElem?_eq_getElem hiw) hf
          rcases Nat.lt_or_ge f (codeCeil s k) with hlt | hge
          · exact hlt
          · have hge := (codeCeil_le hk0).mp hge
            unfold AxisVisits at hv
            split at hv
            · omega
            · exact absurd ⟨i, s, k, _, hs, hk', List.getElem?_eq_getElem hio, by
                rw [hv.2] at hge; exact hge⟩ hno
      · rintro ⟨_, _, hmet, i, s, k, o, hs, hk', ho, hbey⟩
        have hn : m.shape ≠ [] := by
          intro hn
          rw [hn] at hs
          simp at hs
        have hk0 := hk k (List.mem_of_getElem? hk')
        obtain ⟨c, hc⟩ := exists_touch hk hl hdim (by omega) hmet
        have hout : ∀ c ∈ it.rest, look env h path m t fs c = .panic := by
          intro c hc
          have ht := (touches_iff hk hl hdim (by omega)).mp
            ((mem_boundedCoordIter hl hb' hn hit).mp hc)
          refine look_out hl hk ht.1 ?_
          intro hbd
          have hi := (List.getElem?_eq_some_iff.mp hs).1
          have hic : i < c.length := by omega
          have hiw : i < bbox.shape.length := by omega
          have hv := ht.2 i s k o _ _ hs hk' ho (List.getElem?_eq_getElem hiw)
            (List.getElem?_eq_getElem hic)
          have hlt := bounded_get hbd hs hk' (List.getElem?_eq_getElem hic)
          have hdm := Nat.div_mul_le_self o k
          unfold AxisVisits at hv
          rw [if_neg (by intro hh; have := hbey.1; omega)] at hv
          rw [hv.2] at hlt
          have := (codeCeil_le hk0).mpr hbey
          omega
        have hmem := (mem_boundedCoordIter hl hb' hn hit).mpr hc
        cases hrest : it.rest with
        | nil => rw [hrest] at hmem; simp at hmem
        | cons c0 rest =>
          rw [readLoop_cons, hout c0 (by rw [hrest]; simp)]
    · unfold readNdarrayIntoWithBuffer
      rw [if_pos (.inl hdim)]
      simp [hdim]

example : (readNdarray Demo.env Demo.hier Demo.path { Demo.arr with shape := [99], chunkShape := [50] }
      .u16 ⟨[175], [10]⟩ Demo.emptyFs).1 = .panic ∧
    (readNdarray Demo.env Demo.hier Demo.path { Demo.arr with shape := [99], chunkShape := [50] }
      .u16 ⟨[125], [10]⟩ Demo.emptyFs).1 ≠ .panic := by
  have hk : ∀ k ∈ ({ Demo.arr with shape := [99], chunkShape := [50] } : ArrayMetadata).chunkShape,
      k ≠ 0 := by decide
  have hc : ∀ b, (codecOf Demo.env.codecs
      ({ Demo.arr with shape := [99], chunkShape := [50] } : ArrayMetadata).compressor).decode b
      ≠ .panic := by
    intro b; simp [codecOf, Demo.arr, rawCodec]
  refine ⟨(C26_exact _ _ _ _ _ _ _ _ rfl hk (by decide) rfl hc rfl).mpr
    ⟨⟨0#16, by decide⟩, rfl, ?_, ⟨0, 99, 50, 175, rfl, rfl, rfl, by unfold AxisBeyond; decide⟩⟩, ?_⟩
  · intro i s k o w hs hk ho hw
    match i with
    | 0 =>
      simp at hs hk ho hw
      subst hs hk ho hw
      exact .inr (by decide)
    | i + 1 => simp at hs
  · intro hp
    obtain ⟨_, _, _, i, s, k, o, hs, hk, ho, hbey⟩ :=
      (C26_exact _ _ _ _ _ _ _ _ rfl hk (by decide) rfl hc rfl).mp hp
    match i with
    | 0 =>
      simp at hs hk ho
      subst hs hk ho
      exact absurd hbey (by unfold AxisBeyond; decide)
    | i + 1 => simp at hs

end Zarr
