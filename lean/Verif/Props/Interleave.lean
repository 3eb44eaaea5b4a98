import Verif.Model.Interleave
import Verif.Props.Attributes
import Verif.Props.Nodes
/-!
# Concurrent attribute updates: C48
-/

namespace Zarr

open Spec

theorem M.bind_assoc' {σ α β γ : Type} (x : M σ α) (f : α → M σ β) (g : β → M σ γ) :
    (x >>= f) >>= g = x >>= fun a => f a >>= g := by
  apply M.ext
  intro s
  simp only [M.bind_apply]
  cases x s with
  | mk r s' => cases r <;> rfl

/-- The two steps make up the call. -/
theorem setAttributes_steps (env : Env) (h : Hier) (path : Str) (a : JsonObject) :
    setAttributes env h path a = setAttributesRead env h path a >>= setAttributesWrite h := by
  unfold setAttributes setAttributesRead
  simp only [M.bind_assoc']
  congr 1; funext key
  congr 1; funext v
  congr 1; funext b
  congr 1; funext j
  congr 1; funext existing
  by_cases hm : mergedDoc existing a ≠ existing
  · rw [if_pos hm, if_pos hm]; rfl
  · rw [if_neg hm, if_neg hm]; rfl

/-- One call after the other: a call that takes both its steps. -/
theorem step_step (env : Env) (h : Hier) (path : Str) (a : JsonObject) (fs : Fs) :
    let r := CallState.start.step env h path a fs
    r.1.step env h path a r.2 =
      (.done (setAttributes env h path a fs).1, (setAttributes env h path a fs).2) := by
  intro r
  have hr : r = CallState.ofRead (setAttributesRead env h path a fs) := rfl
  rw [hr, setAttributes_steps, M.bind_apply]
  generalize setAttributesRead env h path a fs = x
  obtain ⟨o, fs1⟩ := x
  cases o <;> rfl

/-- What the reads of a call that will succeed amount to. -/
theorem setAttributesRead_ok {env : Env} {h : Hier} {path : Str} {b : JsonObject} {fs : Fs}
    {key t : Str} {l : Loc} {c : Bytes} {kvs : JsonObject}
    (h0 : nodeMetadataKey h path fs = (.ok key, fs)) (h1 : getPath h.base key = .ok t)
    (h2 : fs.locate (segs t) = .ok l) (h3 : fs.get l = some (.file c))
    (h4 : env.json.parse c = some (.obj kvs)) :
    setAttributesRead env h path b fs =
      (.ok (if mergedDoc kvs b ≠ kvs then some (key, env.json.print (.obj (mergedDoc kvs b))) else none),
        fs) := by
  unfold setAttributesRead
  simp only [M.bind_apply, h0, storeGet_located h1 h2 h3, M.lift_apply, Outcome.ofOption_some, h4,
    Json.asObj]
  by_cases hm : mergedDoc kvs b ≠ kvs
  · rw [if_pos hm, if_pos hm]; rfl
  · rw [if_neg hm, if_neg hm]; rfl

/-- Canonical documents stay canonical. -/
theorem DocsCanonical.after {env : Env} (hj : env.json.Lawful) {h : Hier} {path : Str} {b : JsonObject}
    {fs fs' : Fs} (hb : (Json.obj b).canon env.json.floats 126 = true) (hdoc : DocsCanonical env h path fs)
    (hset : setAttributes env h path b fs = (.ok (), fs')) : DocsCanonical env h path fs' := by
  obtain ⟨key, t, l, c, kvs, h0, h1, h2, h3, h4, h5⟩ := setAttributes_ok hset
  have hkey : key = arrayMetadataKey h.entry path ∨ key = groupMetadataKey h.entry path := by
    obtain ⟨_, ⟨rfl, _⟩ | ⟨rfl, _⟩⟩ := nodeMetadataKey_ok h0
    · exact .inl rfl
    · exact .inr rfl
  obtain ⟨_, hcan⟩ := DocsCanonical.of_parse hdoc hkey (storeGet_located h1 h2 h3) h4
  by_cases hm : mergedDoc kvs b = kvs
  · rw [if_pos hm] at h5
    subst h5
    exact hdoc
  · rw [if_neg hm] at h5
    subst h5
    have hsame := Fs.Same.put (b' := env.json.print (.obj (mergedDoc kvs b))) h3
    intro key' hkey' t' j' hg hp
    have hex' := congrArg Prod.fst (storeExists_of_get hg)
    rw [storeExists_same hsame] at hex'
    obtain ⟨t2, l2, c2, g1, g2, g3⟩ := storeExists_true hex'
    have g2' : (fs.put l (.file (env.json.print (.obj (mergedDoc kvs b))))).locate (segs t2) = .ok l2 := by
      unfold Fs.locate; rw [hsame.walk]; exact g2
    by_cases hl : l2 = l
    · subst hl
      have := storeGet_located g1 g2' (by rw [Fs.get_put, if_pos rfl])
      rw [this] at hg
      have : env.json.print (.obj (mergedDoc kvs b)) = t' := by simpa using hg
      rw [← this, hj.raw_print (.obj (mergedDoc kvs b)) (mergedDoc_canon hcan hb)] at hp
      rw [← Option.some.inj hp]
      exact mergedDoc_canon hcan hb
    · have := storeGet_located g1 g2' (by rw [Fs.get_put, if_neg hl]; exact g3)
      rw [this] at hg
      have hc : c2 = t' := by simpa using hg
      subst hc
      exact hdoc key' hkey' c2 j' (storeGet_located g1 g2 g3) hp

/-- **C48 (partial).** If one call takes both its steps before the other starts and both return `Ok`,
then the attributes of both are listed afterwards, provided the two have no key in common. Missing:
calls that overlap, see `C48_violated`. -/
theorem C48_partial {env : Env} (hj : env.json.Lawful) {h : Hier} {path : Str} {a b : JsonObject}
    {fs fs' : Fs} (ha : (Json.obj a).canon env.json.floats 126 = true)
    (hb : (Json.obj b).canon env.json.floats 126 = true) (hdoc : DocsCanonical env h path fs)
    (hdisj : ∀ k, objGet a k = none ∨ objGet b k = none)
    (sched : List Bool) (hs : sched = [false, false, true, true] ∨ sched = [true, true, false, false])
    (hrun : runTwo env h path a b sched (.start, .start, fs) = (.done (.ok ()), .done (.ok ()), fs')) :
    ∃ new, listAttributes env h path fs' = (.ok new, fs') ∧
      (∀ k v, objGet a k = some v → objGet new k = some v) ∧
      (∀ k v, objGet b k = some v → objGet new k = some v) := by
  have key : ∀ {a b : JsonObject} {fs1 : Fs}, (Json.obj a).canon env.json.floats 126 = true →
      (Json.obj b).canon env.json.floats 126 = true → (∀ k, objGet a k = none ∨ objGet b k = none) →
      setAttributes env h path a fs = (.ok (), fs1) → setAttributes env h path b fs1 = (.ok (), fs') →
      ∃ new, listAttributes env h path fs' = (.ok new, fs') ∧
        (∀ k v, objGet a k = some v → objGet new k = some v) ∧
        (∀ k v, objGet b k = some v → objGet new k = some v) := by
    intro a b fs1 ha hb hdisj h1 h2
    obtain ⟨n1, l1, v1, _⟩ := C33 hj ha hdoc h1
    obtain ⟨n2, l2, v2, w2⟩ := C33 hj hb (DocsCanonical.after hj ha hdoc h1) h2
    refine ⟨n2, l2, ?_, v2⟩
    intro k v hk
    have hbk : objGet b k = none := by
      rcases hdisj k with h | h
      · rw [h] at hk; cases hk
      · exact h
    rw [w2 n1 l1 k hbk]
    exact v1 k v hk
  have e1 : ∀ (a : JsonObject) (fs : Fs), ((CallState.start.step env h path a fs).1.step env h path a
      (CallState.start.step env h path a fs).2) =
      (.done (setAttributes env h path a fs).1, (setAttributes env h path a fs).2) :=
    fun a fs => step_step env h path a fs
  rcases hs with rfl | rfl
  · rw [runTwo, runTwo, runTwo, runTwo, runTwo] at hrun
    rw [e1 a fs, e1 b] at hrun
    obtain ⟨r1, r2, r3⟩ : (setAttributes env h path a fs).1 = .ok () ∧
        (setAttributes env h path b (setAttributes env h path a fs).2).1 = .ok () ∧
        (setAttributes env h path b (setAttributes env h path a fs).2).2 = fs' := by
      generalize setAttributes env h path a fs = x at hrun ⊢
      generalize setAttributes env h path b x.2 = y at hrun ⊢
      simpa using hrun
    have q1 : setAttributes env h path a fs = (.ok (), (setAttributes env h path a fs).2) :=
      Prod.ext r1 rfl
    exact key ha hb hdisj q1 (Prod.ext r2 r3)
  · rw [runTwo, runTwo, runTwo, runTwo, runTwo] at hrun
    rw [e1 b fs, e1 a] at hrun
    obtain ⟨r1, r2, r3⟩ : (setAttributes env h path b fs).1 = .ok () ∧
        (setAttributes env h path a (setAttributes env h path b fs).2).1 = .ok () ∧
        (setAttributes env h path a (setAttributes env h path b fs).2).2 = fs' := by
      generalize setAttributes env h path b fs = x at hrun ⊢
      generalize setAttributes env h path a x.2 = y at hrun ⊢
      obtain ⟨q1, q2, q3⟩ : y.1 = .ok () ∧ x.1 = .ok () ∧ y.2 = fs' := by simpa using hrun
      exact ⟨q2, q1, q3⟩
    have q1 : setAttributes env h path b fs = (.ok (), (setAttributes env h path b fs).2) :=
      Prod.ext r1 rfl
    obtain ⟨new, n1, n2, n3⟩ := key hb ha (fun k => (hdisj k).symm) q1 (Prod.ext r2 r3)
    exact ⟨new, n1, n3, n2⟩

/-- **C48 is violated** whenever the calls overlap: if each call alone would succeed and would change
the document, then with both reads before both writes both calls return `Ok`, and the filesystem is
what the call that writes last would have left alone. -/
theorem C48_violated {env : Env} {h : Hier} {path : Str} {a b : JsonObject} {fs fsa fsb : Fs}
    (ha : setAttributes env h path a fs = (.ok (), fsa)) (hca : ∃ l, fsa.get l ≠ fs.get l)
    (hb : setAttributes env h path b fs = (.ok (), fsb)) (hcb : ∃ l, fsb.get l ≠ fs.get l)
    (sched : List Bool)
    (hs : sched = [false, true, false, true] ∨ sched = [true, false, false, true]) :
    ∃ fs', runTwo env h path a b sched (.start, .start, fs) = (.done (.ok ()), .done (.ok ()), fs') ∧
      ∀ l, fs'.get l = fsb.get l := by
  obtain ⟨key, t, l, c, kvs, h0, h1, h2, h3, h4, h5⟩ := setAttributes_ok ha
  obtain ⟨key', t', l', c', kvs', h0', h1', h2', h3', h4', h5'⟩ := setAttributes_ok hb
  have : key = key' := by rw [h0] at h0'; simpa using h0'
  subst this
  have : t = t' := by rw [h1] at h1'; simpa using h1'
  subst this
  have : l = l' := by rw [h2] at h2'; simpa using h2'
  subst this
  have : c = c' := by rw [h3] at h3'; simpa using h3'
  subst this
  have : kvs = kvs' := by rw [h4] at h4'; simpa using h4'
  subst this
  have hma : mergedDoc kvs a ≠ kvs := by
    intro hm; rw [if_pos hm] at h5; subst h5
    obtain ⟨x, hx⟩ := hca; exact hx rfl
  have hmb : mergedDoc kvs b ≠ kvs := by
    intro hm; rw [if_pos hm] at h5'; subst h5'
    obtain ⟨x, hx⟩ := hcb; exact hx rfl
  rw [if_neg hma] at h5
  rw [if_neg hmb] at h5'
  have ra := setAttributesRead_ok (b := a) h0 h1 h2 h3 h4
  have rb := setAttributesRead_ok (b := b) h0 h1 h2 h3 h4
  rw [if_pos hma] at ra
  rw [if_pos hmb] at rb
  have sa : CallState.start.step env h path a fs =
      (.pending (some (key, env.json.print (.obj (mergedDoc kvs a)))), fs) := by
    rw [CallState.step, ra]; rfl
  have sb : CallState.start.step env h path b fs =
      (.pending (some (key, env.json.print (.obj (mergedDoc kvs b)))), fs) := by
    rw [CallState.step, rb]; rfl
  have wa := storeSet_located h1 h2 h3 (env.json.print (.obj (mergedDoc kvs a)), .ok ())
  have hsame := Fs.Same.put (b' := env.json.print (.obj (mergedDoc kvs a))) h3
  have h2a : (fs.put l (.file (env.json.print (.obj (mergedDoc kvs a))))).locate (segs t) = .ok l := by
    unfold Fs.locate; rw [hsame.walk]; exact h2
  have wb := storeSet_located h1 h2a (by rw [Fs.get_put, if_pos rfl])
    (env.json.print (.obj (mergedDoc kvs b)), .ok ())
  simp only at wa wb
  refine ⟨(fs.put l (.file (env.json.print (.obj (mergedDoc kvs a))))).put l
      (.file (env.json.print (.obj (mergedDoc kvs b)))), ?_, ?_⟩
  · rcases hs with rfl | rfl
    · rw [runTwo, runTwo, sa, runTwo, sb, runTwo, runTwo]
      simp only [CallState.step, setAttributesWrite]
      rw [wa]; simp only; rw [wb]
    · rw [runTwo, runTwo, sb, runTwo, sa, runTwo, runTwo]
      simp only [CallState.step, setAttributesWrite]
      rw [wa]; simp only; rw [wb]
  · intro x
    rw [h5', Fs.get_put, Fs.get_put, Fs.get_put]
    by_cases hx : x = l
    · rw [if_pos hx, if_pos hx]
    · rw [if_neg hx, if_neg hx, if_neg hx]

set_option maxRecDepth 20000 in
/-- Two calls on the group `g` with different keys: one after the other, and overlapping. -/
example :
    let a : JsonObject := [(str!"p", .int 1)]
    let b : JsonObject := [(str!"q", .int 2)]
    let r1 := runTwo Demo.envJ Demo.hier str!"g" a b [false, false, true, true] (.start, .start, Demo.attrFs)
    let r2 := runTwo Demo.envJ Demo.hier str!"g" a b [false, true, false, true] (.start, .start, Demo.attrFs)
    (∀ k, objGet a k = none ∨ objGet b k = none) ∧
    (r1.1 = .done (.ok ()) ∧ r1.2.1 = .done (.ok ()) ∧
      (listAttributes Demo.envJ Demo.hier str!"g" r1.2.2).1 = .ok [(str!"x", .int 1),
        (str!"y", .obj [(str!"z", .null)]), (str!"p", .int 1), (str!"q", .int 2)]) ∧
    (r2.1 = .done (.ok ()) ∧ r2.2.1 = .done (.ok ()) ∧
      (listAttributes Demo.envJ Demo.hier str!"g" r2.2.2).1 = .ok [(str!"x", .int 1),
        (str!"y", .obj [(str!"z", .null)]), (str!"q", .int 2)]) := by
  refine ⟨?_, by decide +kernel, by decide +kernel⟩
  intro k
  by_cases hk : str!"p" = k
  · right; subst hk; decide
  · left; simp [objGet, hk]

end Zarr
