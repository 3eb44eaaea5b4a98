import Verif.Model.Machine
import Verif.Props.Grid
import Verif.Props.Chunk
/-!
# Machine arithmetic: C57
-/

namespace Zarr

open Spec

/-! ## Specification: what has to fit into 64 bits -/

/-- The three lists have the same length and along every axis the sum of the entries is below
`2 ^ 64`. -/
def Spec.Fits : List Nat → List Nat → List Nat → Prop
  | o :: os, s :: ss, k :: ks => o + s + k < 2 ^ 64 ∧ Fits os ss ks
  | [], [], [] => True
  | _, _, _ => False

/-- Along every axis the extent plus the chunk size is below `2 ^ 64`. -/
def Spec.ExtentFits (m : ArrayMetadata) : Prop :=
  Fits (List.replicate m.shape.length 0) m.shape m.chunkShape

/-- Along every axis the end of the box plus the chunk size is below `2 ^ 64`. -/
def Spec.RequestFits (m : ArrayMetadata) (b : BBox) : Prop := Fits b.offset b.shape m.chunkShape

/-- Along every axis the end of the box is below `2 ^ 64`. -/
def Spec.BoxFits (b : BBox) : Prop := ∀ p ∈ b.offset.zip b.shape, p.1 + p.2 < 2 ^ 64

/-- The product of the numbers, zeros counted as one, is below `2 ^ 64`. -/
def Spec.ProductFits (l : List Nat) : Prop := (l.map (max 1)).prod < 2 ^ 64

/-- The number of chunks along each axis, rounded up. -/
def Spec.chunkCounts (m : ArrayMetadata) : List Nat :=
  List.zipWith (fun d k => (d + k - 1) / k) m.shape m.chunkShape

/-! ## Single operations -/

theorem wrap64_ok {chk : Bool} {n : Nat} (h : n < 2 ^ 64) : wrap64 chk n = .ok n := by
  unfold wrap64; rw [if_pos h]

theorem add64_ok {chk : Bool} {a b : Nat} (h : a + b < 2 ^ 64) : add64 chk a b = .ok (a + b) :=
  wrap64_ok h

theorem mul64_ok {chk : Bool} {a b : Nat} (h : a * b < 2 ^ 64) : mul64 chk a b = .ok (a * b) :=
  wrap64_ok h

theorem u64CeilDivM_eq {chk : Bool} {a b : Nat} (h : a + 1 < 2 ^ 64) :
    u64CeilDivM chk a b = u64CeilDiv a b := by
  unfold u64CeilDivM u64CeilDiv
  rw [add64_ok h]
  simp only [Outcome.bind_ok, div64, rem64]
  by_cases hb : b = 0
  · simp [hb]
  · simp only [if_neg hb, Outcome.bind_ok]
    apply add64_ok
    by_cases hb1 : b = 1
    · subst hb1
      rw [Nat.mod_one, if_neg (by simp), Nat.div_one]
      exact h
    · have h2 : (a + 1) / b ≤ (a + 1) / 2 := Nat.div_le_div_left (by omega) (by omega)
      split <;> omega

theorem sub64_cases (chk : Bool) (a b : Nat) :
    (∃ x, sub64 chk a b = .ok x) ∨ sub64 chk a b = .panic := by
  unfold sub64
  split
  · exact .inl ⟨_, rfl⟩
  · split
    · exact .inr rfl
    · exact .inl ⟨_, rfl⟩

theorem ceilDivM_eq {chk : Bool} {d s : Nat} (h : d + s < 2 ^ 64) :
    ceilDivM chk d s = ceilDiv d s := by
  unfold ceilDivM ceilDiv
  rw [add64_ok h, Outcome.bind_ok]
  by_cases hs : s = 0
  · rw [if_pos hs]
    rcases sub64_cases chk (d + s) 1 with ⟨x, hx⟩ | hx
    · rw [hx, Outcome.bind_ok, div64, if_pos hs]
    · rw [hx]; rfl
  · have hx : sub64 chk (d + s) 1 = .ok (d + s - 1) := by
      unfold sub64; rw [if_pos (by omega)]
    rw [hx, Outcome.bind_ok, div64, if_neg hs]

theorem div64_eq (a b : Nat) : div64 a b = floorDiv a b := rfl

theorem zipOutcome_congr {f g : Nat → Nat → Outcome Nat} :
    ∀ {as bs : List Nat}, (∀ p ∈ as.zip bs, f p.1 p.2 = g p.1 p.2) →
      zipOutcome f as bs = zipOutcome g as bs
  | [], _, _ => by simp [zipOutcome]
  | _ :: _, [], _ => by simp [zipOutcome]
  | a :: as, b :: bs, h => by
    have h1 := h (a, b) (by simp)
    have h2 := zipOutcome_congr (f := f) (g := g) (as := as) (bs := bs)
      (fun p hp => h p (by simp [hp]))
    simp only [zipOutcome, h1, h2]

/-- A product all of whose factors are bounded by factors with a small product. -/
theorem prodM_ok {chk : Bool} : ∀ {l u : List Nat} {acc : Nat}, l.length = u.length →
    (∀ p ∈ l.zip u, p.1 ≤ p.2) → (∀ x ∈ u, 1 ≤ x) → acc * u.prod < 2 ^ 64 →
    prodM chk acc l = .ok (acc * l.prod)
  | [], _, acc, _, _, _, _ => by simp [prodM]
  | x :: l, [], _, h, _, _, _ => by simp at h
  | x :: l, y :: u, acc, hl, hle, h1, hp => by
    have hxy : x ≤ y := hle (x, y) (by simp)
    have hu : 1 ≤ u.prod := by
      clear hle hl hp
      induction u with
      | nil => simp
      | cons z u ih =>
        rw [List.prod_cons]
        have := ih (fun w hw => h1 w (by simp at hw ⊢; rcases hw with h | h <;> simp [h]))
        have := h1 z (by simp)
        exact Nat.mul_pos (by omega) (by omega)
    rw [List.prod_cons] at hp
    have e1 : acc * x * u.prod ≤ acc * (y * u.prod) := by
      rw [Nat.mul_assoc]
      exact Nat.mul_le_mul_left _ (Nat.mul_le_mul_right _ hxy)
    have e2 : acc * x < 2 ^ 64 := by
      have : acc * x * 1 ≤ acc * x * u.prod := Nat.mul_le_mul_left _ hu
      omega
    rw [prodM, mul64_ok e2, Outcome.bind_ok,
      prodM_ok (l := l) (u := u) (by simpa using hl) (fun p hm => hle p (by simp [hm]))
        (fun z hz => h1 z (by simp [hz])) (by omega), List.prod_cons, Nat.mul_assoc]

theorem prodM_fits {chk : Bool} {l : List Nat} (h : ProductFits l) : prodM chk 1 l = .ok l.prod := by
  have := prodM_ok (chk := chk) (l := l) (u := l.map (max 1)) (acc := 1) (by simp)
    (by
      intro p hp
      have : ∀ (l : List Nat) p, p ∈ l.zip (l.map (max 1)) → p.1 ≤ p.2 := by
        intro l
        induction l with
        | nil => simp
        | cons a l ih =>
          intro p hp
          simp only [List.map_cons, List.zip_cons_cons, List.mem_cons] at hp
          rcases hp with rfl | hp
          · exact Nat.le_max_right _ _
          · exact ih p hp
      exact this l p hp)
    (by
      intro x hx
      rw [List.mem_map] at hx
      obtain ⟨a, _, rfl⟩ := hx
      exact Nat.le_max_left _ _)
    (by rw [Nat.one_mul]; exact h)
  rw [this, Nat.one_mul]

/-- Without overflow checks a product is the mathematical one modulo `2 ^ 64`. -/
theorem prodM_wraps : ∀ {l : List Nat} {acc : Nat}, acc < 2 ^ 64 →
    prodM false acc l = .ok (acc * l.prod % 2 ^ 64)
  | [], acc, h => by simp [prodM, Nat.mod_eq_of_lt h]
  | x :: l, acc, h => by
    have : mul64 false acc x = .ok (acc * x % 2 ^ 64) := by
      unfold mul64 wrap64
      split
      · rename_i h; rw [Nat.mod_eq_of_lt h]
      · rfl
    rw [prodM, this, Outcome.bind_ok, prodM_wraps (Nat.mod_lt _ (by decide)), List.prod_cons,
      Nat.mod_mul_mod, Nat.mul_assoc]

/-! ## The grid -/

theorem Fits.zip : ∀ {os ss ks : List Nat}, Fits os ss ks → ∀ p ∈ os.zip ss, p.1 + p.2 < 2 ^ 64
  | o :: os, s :: ss, k :: ks, h, p, hp => by
    simp only [Fits] at h
    simp only [List.zip_cons_cons, List.mem_cons] at hp
    rcases hp with rfl | hp
    · simp only; omega
    · exact Fits.zip h.2 p hp
  | [], _, _, _, p, hp => by simp at hp
  | _ :: _, [], _, h, _, _ => by simp [Fits] at h
  | _ :: _, _ :: _, [], h, _, _ => by simp [Fits] at h

theorem Fits.ends : ∀ {os ss ks : List Nat}, Fits os ss ks →
    ∀ p ∈ (List.zipWith (· + ·) os ss).zip ks, p.1 + p.2 < 2 ^ 64
  | o :: os, s :: ss, k :: ks, h, p, hp => by
    simp only [Fits] at h
    simp only [List.zipWith_cons_cons, List.zip_cons_cons, List.mem_cons] at hp
    rcases hp with rfl | hp
    · exact h.1
    · exact Fits.ends h.2 p hp
  | [], _, _, _, p, hp => by simp at hp
  | _ :: _, [], _, h, _, _ => by simp [Fits] at h
  | _ :: _, _ :: _, [], h, _, _ => by simp [Fits] at h

theorem Fits.length : ∀ {os ss ks : List Nat}, Fits os ss ks →
    os.length = ss.length ∧ ss.length = ks.length
  | o :: os, s :: ss, k :: ks, h => by
    have := Fits.length h.2
    simp only [List.length_cons]
    omega
  | [], [], [], _ => by simp
  | [], _ :: _, _, h => by simp [Fits] at h
  | [], [], _ :: _, h => by simp [Fits] at h
  | _ :: _, [], _, h => by simp [Fits] at h
  | _ :: _, _ :: _, [], h => by simp [Fits] at h

theorem zero_ends (ss : List Nat) :
    List.zipWith (· + ·) (List.replicate ss.length 0) ss = ss := by
  induction ss with
  | nil => rfl
  | cons s ss ih => simp only [List.length_cons, List.replicate_succ, List.zipWith_cons_cons, ih,
      Nat.zero_add]

theorem ExtentFits.zip {m : ArrayMetadata} (h : ExtentFits m) :
    ∀ p ∈ m.shape.zip m.chunkShape, p.1 + p.2 < 2 ^ 64 := by
  have := Fits.ends h
  rwa [zero_ends] at this

theorem gridExtentM_eq {chk : Bool} {m : ArrayMetadata} (hk : ∀ k ∈ m.chunkShape, k ≠ 0)
    (h : ExtentFits m) : m.gridExtentM chk = m.gridExtent := by
  unfold ArrayMetadata.gridExtentM ArrayMetadata.gridExtent
  apply zipOutcome_congr
  intro p hp
  apply u64CeilDivM_eq
  have h1 := ExtentFits.zip h p hp
  have h2 := hk p.2 (List.of_mem_zip hp).2
  omega

/-! ## Boxes -/

theorem isectLoopM_eq {chk : Bool} : ∀ {ss os ss' os' : List Nat},
    (∀ p ∈ os.zip ss, p.1 + p.2 < 2 ^ 64) → (∀ p ∈ os'.zip ss', p.1 + p.2 < 2 ^ 64) →
    isectLoopM chk ss os ss' os' = .ok (isectLoop ss os ss' os')
  | s :: ss, o :: os, s' :: ss', o' :: os', h, h' => by
    have h1 := h (o, s) (by simp)
    have h2 := h' (o', s') (by simp)
    rw [isectLoopM, add64_ok (by omega), Outcome.bind_ok, add64_ok h2, Outcome.bind_ok,
      isectLoopM_eq (fun p hp => h p (by simp [hp])) (fun p hp => h' p (by simp [hp]))]
    rfl
  | [], _, _, _, _, _ => by simp [isectLoopM, isectLoop]
  | _ :: _, [], _, _, _, _ => by simp [isectLoopM, isectLoop]
  | _ :: _, _ :: _, [], _, _, _ => by simp [isectLoopM, isectLoop]
  | _ :: _, _ :: _, _ :: _, [], _, _ => by simp [isectLoopM, isectLoop]

theorem unionLoopM_eq {chk : Bool} : ∀ {ss os ss' os' : List Nat},
    (∀ p ∈ os.zip ss, p.1 + p.2 < 2 ^ 64) → (∀ p ∈ os'.zip ss', p.1 + p.2 < 2 ^ 64) →
    unionLoopM chk ss os ss' os' = .ok (unionLoop ss os ss' os')
  | s :: ss, o :: os, s' :: ss', o' :: os', h, h' => by
    have h1 := h (o, s) (by simp)
    have h2 := h' (o', s') (by simp)
    have h3 : sub64 chk (max (s + o) (o' + s')) (min o' o) = .ok (max (s + o) (o' + s') - min o' o) := by
      unfold sub64
      rw [if_pos (by omega)]
    rw [unionLoopM, add64_ok (by omega), Outcome.bind_ok, add64_ok h2, Outcome.bind_ok, h3,
      Outcome.bind_ok,
      unionLoopM_eq (fun p hp => h p (by simp [hp])) (fun p hp => h' p (by simp [hp]))]
    rfl
  | [], _, _, _, _, _ => by simp [unionLoopM, unionLoop]
  | _ :: _, [], _, _, _, _ => by simp [unionLoopM, unionLoop]
  | _ :: _, _ :: _, [], _, _, _ => by simp [unionLoopM, unionLoop]
  | _ :: _, _ :: _, _ :: _, [], _, _ => by simp [unionLoopM, unionLoop]

theorem intersectM_eq {chk : Bool} {a b : BBox} (ha : BoxFits a) (hb : BoxFits b) :
    a.intersectM chk b = a.intersect b := by
  unfold BBox.intersectM BBox.intersect
  split
  · rw [isectLoopM_eq ha hb]; rfl
  · rfl

theorem unionM_eq {chk : Bool} {a b : BBox} (ha : BoxFits a) (hb : BoxFits b) :
    a.unionM chk b = a.union b := by
  unfold BBox.unionM BBox.union
  split
  · rw [unionLoopM_eq ha hb]; rfl
  · rfl

theorem zipAdd_ok {chk : Bool} : ∀ {os ss : List Nat}, (∀ p ∈ os.zip ss, p.1 + p.2 < 2 ^ 64) →
    zipOutcome (add64 chk) os ss = .ok (List.zipWith (· + ·) os ss)
  | [], _, _ => by simp [zipOutcome]
  | _ :: _, [], _ => by simp [zipOutcome]
  | o :: os, s :: ss, h => by
    rw [zipOutcome, add64_ok (h (o, s) (by simp)), Outcome.bind_ok,
      zipAdd_ok (fun p hp => h p (by simp [hp]))]
    rfl

theorem endM_eq {chk : Bool} {a : BBox} (ha : BoxFits a) : a.endM chk = .ok a.end := zipAdd_ok ha

/-- The common part of two boxes that fit fits. -/
theorem Fits.isect : ∀ {ss os ss' os' ks : List Nat}, Fits os ss ks → Fits os' ss' ks →
    Fits (isectLoop ss os ss' os').2 (isectLoop ss os ss' os').1 ks
  | s :: ss, o :: os, s' :: ss', o' :: os', k :: ks, h, h' => by
    simp only [Fits] at h h'
    simp only [isectLoop, Fits]
    exact ⟨by omega, Fits.isect h.2 h'.2⟩
  | [], [], ss', os', ks, h, h' => by simpa [isectLoop] using h
  | [], _ :: _, _, _, _, h, _ => by simp [Fits] at h
  | _ :: _, [], _, _, _, h, _ => by simp [Fits] at h
  | _ :: _, _ :: _, _, _, [], h, _ => by simp [Fits] at h
  | _ :: _, _ :: _, [], [], _ :: _, _, h => by simp [Fits] at h
  | _ :: _, _ :: _, [], _ :: _, _ :: _, _, h => by simp [Fits] at h
  | _ :: _, _ :: _, _ :: _, [], _ :: _, _, h => by simp [Fits] at h

/-! ## Coordinate iterators -/

theorem zipCounts_le : ∀ {ss ks : List Nat}, ∀ p ∈ (List.zipWith (fun d k => (d + k - 1) / k) ss ks).zip
    ((List.zipWith (fun d k => (d + k - 1) / k) ss ks).map (max 1)), p.1 ≤ p.2
  | [], _, p, hp => by simp at hp
  | _ :: _, [], p, hp => by simp at hp
  | s :: ss, k :: ks, p, hp => by
    simp only [List.zipWith_cons_cons, List.map_cons, List.zip_cons_cons, List.mem_cons] at hp
    rcases hp with rfl | hp
    · exact Nat.le_max_right _ _
    · exact zipCounts_le p hp

theorem coordIterM_eq {chk : Bool} {m : ArrayMetadata} (hk : ∀ k ∈ m.chunkShape, k ≠ 0)
    (h : ExtentFits m) (hp : ProductFits (chunkCounts m)) : m.coordIterM chk = m.coordIter := by
  unfold ArrayMetadata.coordIterM ArrayMetadata.coordIter
  rw [zipOutcome_congr (g := ceilDiv) (fun p hp => ceilDivM_eq (ExtentFits.zip h p hp)),
    zipOutcome_ok (g := fun a b => (a + b - 1) / b) _ _
      (fun i a b _ hb => ceilDiv_pos (hk b (List.mem_of_getElem? hb)))]
  simp only [Outcome.bind_ok, CoordIter.newM, CoordIter.new]
  unfold chunkCounts at hp
  rw [prodM_fits hp]
  rfl

/-- The number of positions along one axis is at most the number of chunks, or one. -/
theorem axis_count {d k o w : Nat} (hk : k ≠ 0) :
    (max o 0 + (min (d + 0) (o + w) - max o 0) + k - 1) / k - max o 0 / k
      ≤ max 1 ((d + k - 1) / k) := by
  by_cases hz : min (d + 0) (o + w) - max o 0 = 0
  · rw [hz]
    have h1 : (max o 0 + 0 + k - 1) / k ≤ (max o 0 + k) / k := Nat.div_le_div_right (by omega)
    rw [Nat.add_div_right _ (by omega)] at h1
    omega
  · have h1 : (max o 0 + (min (d + 0) (o + w) - max o 0) + k - 1) / k ≤ (d + k - 1) / k :=
      Nat.div_le_div_right (by omega)
    exact Nat.le_trans (Nat.sub_le _ _) (Nat.le_trans h1 (Nat.le_max_right _ _))

theorem boundedCounts_le : ∀ {ss ks os ws : List Nat}, ss.length = ks.length →
    os.length = ss.length → ws.length = ss.length → (∀ k ∈ ks, k ≠ 0) →
    (List.zipWith (fun f c => c - f)
        (List.zipWith (fun a b => a / b) (isectLoop ss (List.replicate ss.length 0) ws os).2 ks)
        (List.zipWith (fun a b => (a + b - 1) / b)
          (List.zipWith (· + ·) (isectLoop ss (List.replicate ss.length 0) ws os).2
            (isectLoop ss (List.replicate ss.length 0) ws os).1) ks)).length
      = ((List.zipWith (fun d k => (d + k - 1) / k) ss ks).map (max 1)).length ∧
    ∀ p ∈ (List.zipWith (fun f c => c - f)
        (List.zipWith (fun a b => a / b) (isectLoop ss (List.replicate ss.length 0) ws os).2 ks)
        (List.zipWith (fun a b => (a + b - 1) / b)
          (List.zipWith (· + ·) (isectLoop ss (List.replicate ss.length 0) ws os).2
            (isectLoop ss (List.replicate ss.length 0) ws os).1) ks)).zip
      ((List.zipWith (fun d k => (d + k - 1) / k) ss ks).map (max 1)), p.1 ≤ p.2
  | [], _, _, _, _, _, _, _ => by simp [isectLoop]
  | s :: ss, [], _, _, h, _, _, _ => by simp at h
  | s :: ss, k :: ks, [], _, _, h, _, _ => by simp at h
  | s :: ss, k :: ks, o :: os, [], _, _, h, _ => by simp at h
  | s :: ss, k :: ks, o :: os, w :: ws, h1, h2, h3, h4 => by
    obtain ⟨i1, i2⟩ := boundedCounts_le (ss := ss) (ks := ks) (os := os) (ws := ws)
      (by simpa using h1) (by simpa using h2) (by simpa using h3) (fun x hx => h4 x (by simp [hx]))
    simp only [List.length_cons, List.replicate_succ, isectLoop, List.zipWith_cons_cons,
      List.map_cons, List.zip_cons_cons, List.mem_cons]
    refine ⟨by rw [i1], ?_⟩
    rintro p (rfl | hp)
    · exact axis_count (h4 k (by simp))
    · exact i2 p hp

theorem boundedCoordIterM_eq {chk : Bool} {m : ArrayMetadata} {b : BBox}
    (hk : ∀ k ∈ m.chunkShape, k ≠ 0) (h : ExtentFits m) (hb : RequestFits m b)
    (hp : ProductFits (chunkCounts m)) : m.boundedCoordIterM chk b = m.boundedCoordIter b := by
  have l1 := Fits.length h
  have l2 := Fits.length hb
  have hisect : m.bounds.intersectM chk b = m.bounds.intersect b :=
    intersectM_eq (Fits.zip h) (Fits.zip hb)
  unfold ArrayMetadata.boundedCoordIterM ArrayMetadata.boundedCoordIter
  rw [hisect]
  simp only [ArrayMetadata.bounds, BBox.intersect, List.length_replicate,
    show m.shape.length = b.offset.length by omega, if_true, Outcome.bind_ok]
  have hf : Fits (isectLoop m.shape (List.replicate b.offset.length 0) b.shape b.offset).2
      (isectLoop m.shape (List.replicate b.offset.length 0) b.shape b.offset).1 m.chunkShape :=
    Fits.isect (by rw [show b.offset.length = m.shape.length by omega]; exact h) hb
  rw [endM_eq (a := ⟨_, _⟩) (Fits.zip hf)]
  have hz : zipOutcome div64 = zipOutcome floorDiv := rfl
  rw [hz, zipOutcome_ok (g := fun a b => a / b) _ _
    (fun i a b _ hb => floorDiv_pos (hk b (List.mem_of_getElem? hb))), Outcome.bind_ok,
    Outcome.bind_ok, Outcome.bind_ok]
  simp only [BBox.end]
  rw [zipOutcome_congr (g := ceilDiv) (fun p hp => ceilDivM_eq (Fits.ends hf p hp)), zipOutcome_ok (g := fun a b => (a + b - 1) / b) _ _
    (fun i a b _ hb => ceilDiv_pos (hk b (List.mem_of_getElem? hb)))]
  simp only [Outcome.bind_ok, CoordIter.floorCeilM, CoordIter.floorCeil]
  obtain ⟨c1, c2⟩ := boundedCounts_le (ss := m.shape) (ks := m.chunkShape) (os := b.offset)
    (ws := b.shape) (by omega) (by omega) (by omega) hk
  rw [show m.shape.length = b.offset.length by omega] at c1 c2
  rw [prodM_ok c1 c2 (by
      intro x hx
      rw [List.mem_map] at hx
      obtain ⟨a, _, rfl⟩ := hx
      exact Nat.le_max_left _ _) (by rw [Nat.one_mul]; exact hp), Nat.one_mul]
  rfl

/-! ## The boxes of one round -/

theorem toSliceM_eq {chk : Bool} {a : BBox} (h : ∀ p ∈ a.offset.zip a.shape, p.1 + p.2 < 2 ^ 63) :
    a.toSliceM chk = .ok (a.toSlice.map fun p => ((p.1 : Int), (p.2 : Int))) := by
  unfold BBox.toSliceM
  rw [endM_eq (fun p hp => by have := h p hp; omega), Outcome.bind_ok, Outcome.pure_def]
  congr 1
  unfold BBox.toSlice BBox.end
  obtain ⟨os, ss⟩ := a
  simp only at h ⊢
  induction os generalizing ss with
  | nil => simp
  | cons o os ih =>
    cases ss with
    | nil => simp
    | cons s ss =>
      have h1 := h (o, s) (by simp)
      simp only at h1
      simp only [List.zipWith_cons_cons, List.map_cons, List.zip_cons_cons]
      rw [ih ss (fun p hp => h p (by simp [hp]))]
      unfold asIsize
      rw [if_pos (by omega), if_pos (by omega)]

/-- A non-empty common part relative to either box is a box inside it. -/
theorem isect_rel : ∀ {ss os ss' os' : List Nat} {B : Nat}, os.length = ss.length →
    ss'.length = ss.length → os'.length = ss.length → (0 ∉ (isectLoop ss os ss' os').1) →
    ((∀ x ∈ ss, x < B) → ∃ r, zipOutcome checkedSub (isectLoop ss os ss' os').2 os = .ok r ∧
      ∀ p ∈ r.zip (isectLoop ss os ss' os').1, p.1 + p.2 < B) ∧
    ((∀ x ∈ ss', x < B) → ∃ r, zipOutcome checkedSub (isectLoop ss os ss' os').2 os' = .ok r ∧
      ∀ p ∈ r.zip (isectLoop ss os ss' os').1, p.1 + p.2 < B)
  | [], [], ss', os', B, _, h2, h3, _ => by
    cases ss' <;> cases os' <;> simp_all [isectLoop, zipOutcome]
  | [], _ :: _, _, _, _, h, _, _, _ => by simp at h
  | _ :: _, [], _, _, _, h, _, _, _ => by simp at h
  | _ :: _, _ :: _, [], _, _, _, h, _, _ => by simp at h
  | _ :: _, _ :: _, _ :: _, [], _, _, _, h, _ => by simp at h
  | s :: ss, o :: os, s' :: ss', o' :: os', B, h1, h2, h3, hne => by
    simp only [isectLoop, List.mem_cons, not_or] at hne
    obtain ⟨i1, i2⟩ := isect_rel (B := B) (ss := ss) (os := os) (ss' := ss') (os' := os')
      (by simpa using h1) (by simpa using h2) (by simpa using h3) hne.2
    have hpos := hne.1
    simp only [isectLoop]
    constructor
    · intro hB
      obtain ⟨r, e1, e2⟩ := i1 (fun x hx => hB x (by simp [hx]))
      have hs := hB s (by simp)
      refine ⟨(max o' o - o) :: r, ?_, ?_⟩
      · rw [zipOutcome, checkedSub, if_pos (by omega), Outcome.bind_ok, e1]; rfl
      · intro p hp
        simp only [List.zip_cons_cons, List.mem_cons] at hp
        rcases hp with rfl | hp
        · simp only; omega
        · exact e2 p hp
    · intro hB
      obtain ⟨r, e1, e2⟩ := i2 (fun x hx => hB x (by simp [hx]))
      have hs := hB s' (by simp)
      refine ⟨(max o' o - o') :: r, ?_, ?_⟩
      · rw [zipOutcome, checkedSub, if_pos (by omega), Outcome.bind_ok, e1]; rfl
      · intro p hp
        simp only [List.zip_cons_cons, List.mem_cons] at hp
        rcases hp with rfl | hp
        · simp only; omega
        · exact e2 p hp

/-- The box of a position that is visited fits. -/
theorem touches_fits : ∀ {ss ks os ws cs : List Nat}, Touches ss ks os ws cs →
    Fits (List.replicate ss.length 0) ss ks → Fits os ws ks →
    zipOutcome (mul64 true) cs ks = .ok (List.zipWith (· * ·) cs ks) ∧
    zipOutcome (mul64 false) cs ks = .ok (List.zipWith (· * ·) cs ks) ∧
    ∀ p ∈ (List.zipWith (· * ·) cs ks).zip ks, p.1 + p.2 < 2 ^ 64
  | [], ks, os, ws, cs, h, _, _ => by
    cases ks <;> cases os <;> cases ws <;> cases cs <;> simp_all [Touches, zipOutcome]
  | s :: ss, [], os, ws, cs, h, _, _ => by simp [Touches] at h
  | s :: ss, k :: ks, [], ws, cs, h, _, _ => by simp [Touches] at h
  | s :: ss, k :: ks, o :: os, [], cs, h, _, _ => by simp [Touches] at h
  | s :: ss, k :: ks, o :: os, w :: ws, [], h, _, _ => by simp [Touches] at h
  | s :: ss, k :: ks, o :: os, w :: ws, c :: cs, h, h1, h2 => by
    simp only [Touches] at h
    simp only [List.length_cons, List.replicate_succ, Fits] at h1 h2
    obtain ⟨i1, i2, i3⟩ := touches_fits h.2 h1.2 h2.2
    have hlt : c * k + k < 2 ^ 64 := by
      have := h.1.2
      omega
    simp only [zipOutcome, List.zipWith_cons_cons, List.zip_cons_cons, List.mem_cons]
    rw [mul64_ok (by omega), mul64_ok (by omega), i1, i2]
    refine ⟨rfl, rfl, ?_⟩
    rintro p (rfl | hp)
    · exact hlt
    · exact i3 p hp

theorem chunkBoundsM_eq {chk : Bool} {m : ArrayMetadata} {b : BBox} {pos : List Nat}
    (h : ExtentFits m) (hb : RequestFits m b)
    (ht : Touches m.shape m.chunkShape b.offset b.shape pos) :
    m.chunkBoundsM chk pos = .ok (m.chunkBounds pos) ∧ BoxFits (m.chunkBounds pos) := by
  obtain ⟨h1, h2, h3⟩ := touches_fits ht h hb
  refine ⟨?_, h3⟩
  unfold ArrayMetadata.chunkBoundsM ArrayMetadata.chunkBounds
  cases chk
  · rw [h2]; rfl
  · rw [h1]; rfl

theorem commonBox {a b : BBox} {p : List Nat} (chk : Bool) (h1 : a.offset.length = a.shape.length)
    (h2 : b.offset.length = b.shape.length) (h3 : b.shape.length = a.shape.length)
    (ha : BoxFits a) (hb : BoxFits b) (sa : ∀ x ∈ a.shape, x < 2 ^ 63) (sb : ∀ x ∈ b.shape, x < 2 ^ 63)
    (pa : InBox a.offset a.shape p) (pb : InBox b.offset b.shape p) :
    ∃ bb r1 r2, a.intersect b = .ok bb ∧ a.intersectM chk b = .ok bb ∧
      bb.sub a.offset = .ok r1 ∧ bb.sub b.offset = .ok r2 ∧
      r1.toSliceM chk = .ok (r1.toSlice.map fun p => ((p.1 : Int), (p.2 : Int))) ∧
      r2.toSliceM chk = .ok (r2.toSlice.map fun p => ((p.1 : Int), (p.2 : Int))) := by
  have hne : 0 ∉ (isectLoop a.shape a.offset b.shape b.offset).1 := by
    intro hm
    have hl := isectLoop_length (s := a.shape) (o := a.offset) (s' := b.shape) (o' := b.offset)
    have := (inBox_empty (o := (isectLoop a.shape a.offset b.shape b.offset).2)
      (s := (isectLoop a.shape a.offset b.shape b.offset).1) (by omega)).mp (by simpa using hm) p
    exact this ((inBox_isect h1 h3 (by omega)).mpr ⟨pa, pb⟩)
  obtain ⟨i1, _⟩ := isect_rel (B := 2 ^ 63) h1 h3 (by omega) hne
  obtain ⟨_, i2⟩ := isect_rel (B := 2 ^ 63) h1 h3 (by omega) hne
  obtain ⟨r1, e1, f1⟩ := i1 sa
  obtain ⟨r2, e2, f2⟩ := i2 sb
  have hi : a.intersect b = .ok ⟨(isectLoop a.shape a.offset b.shape b.offset).2,
      (isectLoop a.shape a.offset b.shape b.offset).1⟩ := by
    unfold BBox.intersect; rw [if_pos (by omega)]
  refine ⟨_, ⟨r1, (isectLoop a.shape a.offset b.shape b.offset).1⟩,
    ⟨r2, (isectLoop a.shape a.offset b.shape b.offset).1⟩, hi, ?_, ?_, ?_, toSliceM_eq f1,
    toSliceM_eq f2⟩
  · rw [intersectM_eq ha hb, hi]
  · unfold BBox.sub; simp only; rw [e1]; rfl
  · unfold BBox.sub; simp only; rw [e2]; rfl

/-- The arithmetic of a round for a visited position whose chunk meets the requested box. -/
theorem roundBoxesM_eq {chk : Bool} {m : ArrayMetadata} {b : BBox} {pos p : List Nat} {order : Bool}
    (h : ExtentFits m) (hb : RequestFits m b) (hs : ∀ x ∈ b.shape, x < 2 ^ 63)
    (hc : ∀ k ∈ m.chunkShape, k < 2 ^ 32)
    (ht : Touches m.shape m.chunkShape b.offset b.shape pos)
    (p1 : InBox b.offset b.shape p) (p2 : Covers m.chunkShape pos p) :
    ∃ cb bb s1 s2, roundBoxes m b order pos = .ok (cb, bb, s1, s2) ∧
      roundBoxesM chk m b order pos = .ok (cb, bb,
        s1.map (fun p => ((p.1 : Int), (p.2 : Int))), s2.map fun p => ((p.1 : Int), (p.2 : Int))) := by
  obtain ⟨g1, g2⟩ := chunkBoundsM_eq (chk := chk) h hb ht
  have l2 := Fits.length hb
  have l3 := Touches.length ht
  have hcb : InBox (m.chunkBounds pos).offset (m.chunkBounds pos).shape p :=
    (inBox_chunk l3).mpr p2
  have hcl : (m.chunkBounds pos).offset.length = (m.chunkBounds pos).shape.length := by
    simp only [ArrayMetadata.chunkBounds, List.length_zipWith]; omega
  have hcl2 : (m.chunkBounds pos).shape.length = b.shape.length := by
    simp only [ArrayMetadata.chunkBounds]; omega
  have hcs : ∀ x ∈ (m.chunkBounds pos).shape, x < 2 ^ 63 := by
    intro x hx
    have := hc x hx
    omega
  unfold roundBoxes roundBoxesM
  rw [g1]
  simp only [Outcome.bind_ok]
  cases order with
  | true =>
    obtain ⟨bb, r1, r2, e1, e2, e3, e4, e5, e6⟩ := commonBox chk l2.1 hcl hcl2 (Fits.zip hb) g2 hs hcs
      p1 hcb
    simp only [if_true, e1, e2, Outcome.bind_ok, e3, e4, e5, e6]
    exact ⟨_, _, _, _, rfl, rfl⟩
  | false =>
    obtain ⟨bb, r1, r2, e1, e2, e3, e4, e5, e6⟩ := commonBox chk hcl l2.1 hcl2.symm g2 (Fits.zip hb)
      hcs hs hcb p1
    simp only [Bool.false_eq_true, if_false, e1, e2, Outcome.bind_ok, e3, e4, e5, e6]
    exact ⟨_, _, _, _, rfl, rfl⟩

/-! ## C57 -/

/-- **C57, the part that holds.** If along every axis the extent plus the chunk size, and the end of
the requested box plus the chunk size, are below `2 ^ 64`, and the counts of chunks and elements
(empty axes counted as one) are too, then with or without overflow checks every function of the grid
and of boxes gives the mathematical result; so does each round of the loops of `read_ndarray` and
`write_ndarray` for a visited position whose chunk has a point in common with the box. -/
theorem C57_partial (chk : Bool) (m : ArrayMetadata) (b : BBox) (hk : ∀ k ∈ m.chunkShape, k ≠ 0)
    (h : ExtentFits m) (hb : RequestFits m b) (hp : ProductFits (chunkCounts m)) :
    m.gridExtentM chk = m.gridExtent ∧
    (∀ pos, m.inBoundsM chk pos = m.inBounds pos) ∧
    (∀ e, m.gridExtent = .ok e → ProductFits e → m.numChunksM chk = m.numChunks) ∧
    (ProductFits m.shape → m.numElementsM chk = .ok m.shape.prod) ∧
    (ProductFits m.chunkShape → m.chunkNumElementsM chk = .ok m.chunkShape.prod) ∧
    m.coordIterM chk = m.coordIter ∧
    m.boundedCoordIterM chk b = m.boundedCoordIter b ∧
    (∀ b', RequestFits m b' → b.intersectM chk b' = b.intersect b' ∧ b.unionM chk b' = b.union b') ∧
    b.endM chk = .ok b.end ∧
    ((∀ x ∈ b.shape, x < 2 ^ 32) → b.shapeChunk = b.shape) ∧
    ∀ it, m.boundedCoordIter b = .ok it → ∀ pos ∈ it.rest, m.shape ≠ [] →
      m.chunkBoundsM chk pos = .ok (m.chunkBounds pos) ∧
      ((∀ x ∈ b.shape, x < 2 ^ 63) → (∀ k ∈ m.chunkShape, k < 2 ^ 32) →
        ∀ p order, InBox b.offset b.shape p → Covers m.chunkShape pos p →
        ∃ cb bb s1 s2, roundBoxes m b order pos = .ok (cb, bb, s1, s2) ∧
          roundBoxesM chk m b order pos = .ok (cb, bb, s1.map (fun p => ((p.1 : Int), (p.2 : Int))),
            s2.map fun p => ((p.1 : Int), (p.2 : Int)))) := by
  have l1 := Fits.length h
  have l2 := Fits.length hb
  have hg := gridExtentM_eq (chk := chk) hk h
  refine ⟨hg, ?_, ?_, ?_, ?_, coordIterM_eq hk h hp, boundedCoordIterM_eq hk h hb hp, ?_,
    endM_eq (Fits.zip hb), ?_, ?_⟩
  · intro pos; unfold ArrayMetadata.inBoundsM ArrayMetadata.inBounds; rw [hg]
  · intro e he hpe
    unfold ArrayMetadata.numChunksM ArrayMetadata.numChunks
    rw [hg, he, Outcome.bind_ok, Outcome.bind_ok, prodM_fits hpe]; rfl
  · exact fun hf => prodM_fits hf
  · exact fun hf => prodM_fits hf
  · exact fun b' hb' => ⟨intersectM_eq (Fits.zip hb) (Fits.zip hb'),
      unionM_eq (Fits.zip hb) (Fits.zip hb')⟩
  · intro hs
    unfold BBox.shapeChunk
    exact (List.map_congr_left fun x hx => Nat.mod_eq_of_lt (hs x hx)).trans (List.map_id _)
  · intro it hit pos hpos hn
    have ht := (mem_boundedCoordIter (by omega) (by omega) hn hit).mp hpos
    refine ⟨(chunkBoundsM_eq h hb ht).1, ?_⟩
    intro hs hc p order p1 p2
    exact roundBoxesM_eq h hb hs hc ht p1 p2

/-- What the two loops do with the boxes of a round. -/
theorem copyChunk_round {m : ArrayMetadata} {bbox : BBox} {t : RsType} {chunk : DataChunk t}
    {arr : NdArr (El t)} {cb bb : BBox} {s1 s2 : List (Nat × Nat)}
    (h : roundBoxes m bbox true chunk.gridPosition = .ok (cb, bb, s1, s2))
    (hne : bb.isEmpty = false) :
    copyChunk m bbox chunk arr = (asNdarray m chunk >>= fun d => d.slice s2 >>= fun v =>
      arr.sliceAssign s1 v) := by
  unfold roundBoxes at h
  unfold copyChunk
  simp only [if_true, Outcome.bind_eq_ok] at h
  obtain ⟨b1, e1, b2, e2, b3, e3, h⟩ := h
  simp only [Outcome.pure_def, Outcome.ok.injEq, Prod.mk.injEq] at h
  obtain ⟨rfl, rfl, rfl, rfl⟩ := h
  simp only [e1, Outcome.bind_ok, hne, Bool.false_eq_true, if_false, e2, e3]

/-- The largest extent there is, in chunks of two. -/
def Demo.arrHuge : ArrayMetadata := { Demo.arr with shape := [2 ^ 64 - 1] }

/-- Chunks of `2 ^ 32` elements. -/
def Demo.arrBigChunk : ArrayMetadata :=
  { Demo.arr with shape := [65536, 65536], chunkShape := [65536, 65536] }

set_option maxRecDepth 20000 in
/-- **C57 fails.** (1, 2) For an extent of `2 ^ 64 - 1`, the grid, the test for bounds and the
iterators panic with overflow checks; without, position 1 is out of bounds and nothing is visited,
though the array has `2 ^ 63` chunks. (3) A box that reaches past `2 ^ 64` has nothing in common with
an array it overlaps. (4) A box past the end of the array makes the iterator panic. (5) An array with
an empty axis has 0 elements, but counting them overflows. (6) A chunk of `2 ^ 32` elements is read
as an empty one from an empty file. (7) The shape of a box in chunk coordinates is cut to 32 bits, and bounds from
`2 ^ 63` become negative. (8) The union of a box that reaches past `2 ^ 64` with itself panics with overflow checks;
without, both the sum and the difference wrap, so that one is right, but the union with another box need not contain
the first. -/
theorem C57_violated :
    (Demo.arrHuge.gridExtentM true = .panic ∧ Demo.arrHuge.inBoundsM true [1] = .panic ∧
      Demo.arrHuge.coordIterM true = .panic ∧
      Demo.arrHuge.boundedCoordIterM true ⟨[0], [2 ^ 64 - 1]⟩ = .panic) ∧
    (Demo.arrHuge.gridExtentM false = .ok [1] ∧ Demo.arrHuge.inBounds [1] = .ok true ∧
      Demo.arrHuge.inBoundsM false [1] = .ok false ∧
      Demo.arrHuge.coordIterM false = .ok ⟨[], 0, 0⟩) ∧
    ((⟨[2 ^ 64 - 2], [3]⟩ : BBox).intersect ⟨[0], [2 ^ 64 - 1]⟩ = .ok ⟨[2 ^ 64 - 2], [1]⟩ ∧
      (⟨[2 ^ 64 - 2], [3]⟩ : BBox).intersectM true ⟨[0], [2 ^ 64 - 1]⟩ = .panic ∧
      (⟨[2 ^ 64 - 2], [3]⟩ : BBox).intersectM false ⟨[0], [2 ^ 64 - 1]⟩ = .ok ⟨[2 ^ 64 - 2], [0]⟩) ∧
    (Demo.arr.boundedCoordIterM true ⟨[2 ^ 64 - 1], [0]⟩ = .panic) ∧
    ({ Demo.arr with shape := [2 ^ 32, 2 ^ 32, 0] }.numElementsM true = .panic) ∧
    (readChunk Demo.env Demo.hier Demo.path Demo.arrBigChunk .u16 [0, 0]
      (storeSet Demo.hier (chunkKey Demo.path Demo.arrBigChunk [0, 0]) ([], .ok ())
        Demo.emptyFs).2).1 = .ok (some ⟨[0, 0], []⟩) ∧
    (⟨[0], [2 ^ 32]⟩ : BBox).shapeChunk = [0] ∧
    ((⟨[2 ^ 63], [1]⟩ : BBox).toSlice = [(2 ^ 63, 2 ^ 63 + 1)] ∧
      (⟨[2 ^ 63], [1]⟩ : BBox).toSliceM true = .ok [(-2 ^ 63, -2 ^ 63 + 1)]) ∧
    ((⟨[2 ^ 64 - 2], [3]⟩ : BBox).unionM true ⟨[2 ^ 64 - 2], [3]⟩ = .panic ∧
      (⟨[2 ^ 64 - 2], [3]⟩ : BBox).unionM false ⟨[2 ^ 64 - 2], [3]⟩ = .ok ⟨[2 ^ 64 - 2], [3]⟩ ∧
      (⟨[2 ^ 64 - 2], [3]⟩ : BBox).unionM false ⟨[2 ^ 64 - 3], [2]⟩ = .ok ⟨[2 ^ 64 - 3], [2]⟩) := by
  decide +kernel

/-- The partial theorem applies to an array of more than `2 ^ 63` elements. -/
example : Fits [0] [2 ^ 64 - 4] [2] ∧ Fits [2 ^ 63] [100] [2] ∧
    ProductFits (chunkCounts { Demo.arr with shape := [2 ^ 64 - 4] }) ∧
    ({ Demo.arr with shape := [2 ^ 64 - 4] }.boundedCoordIterM true ⟨[2 ^ 63], [3]⟩)
      = .ok ⟨[[2 ^ 62], [2 ^ 62 + 1]], 0, 2⟩ ∧
    roundBoxesM true { Demo.arr with shape := [2 ^ 64 - 4] } ⟨[2 ^ 63], [3]⟩ true [2 ^ 62 + 1]
      = .ok (⟨[2 ^ 63 + 2], [2]⟩, ⟨[2 ^ 63 + 2], [1]⟩, [(2, 3)], [(0, 1)]) := by
  refine ⟨⟨by decide, trivial⟩, ⟨by decide, trivial⟩, ?_, by decide +kernel, by decide +kernel⟩
  unfold ProductFits
  decide +kernel

end Zarr
