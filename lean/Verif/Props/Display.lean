import Verif.Model.Display
import Verif.Lemmas.ChunkKey
import Verif.Props.DataType
/-!
# Printed data types: C111

Claim: the printed form of a data type tells the type, since another type is printed differently, and it cannot be
taken for a name in metadata: where metadata have the name of a data type, no printed form is accepted. -/

namespace Zarr

/-- Different data types are printed differently. -/
theorem DataType.display_inj (a b : DataType) (h : a.display = b.display) : a = b := by
  cases a with
  | raw n =>
    cases b with
    | raw k =>
      simp only [DataType.display, List.append_assoc, List.append_cancel_left_eq, List.append_cancel_right_eq] at h
      rw [dec_injective h]
    | _ => simp [DataType.display] at h
  | bool => cases b <;> first | rfl | simp [DataType.display] at h
  | int s e =>
    cases b with
    | int s' e' => revert h; cases s <;> cases e <;> cases s' <;> cases e' <;> decide
    | _ => simp [DataType.display] at h
  | uint s e =>
    cases b with
    | uint s' e' => revert h; cases s <;> cases e <;> cases s' <;> cases e' <;> decide
    | _ => simp [DataType.display] at h
  | float s e =>
    cases b with
    | float s' e' => revert h; cases s <;> cases e <;> cases s' <;> cases e' <;> decide
    | _ => simp [DataType.display] at h

/-- The printed form of a data type is never the name of a data type in metadata. -/
theorem DataType.visitStr_display (d : DataType) : DataType.visitStr d.display = .err .json := by
  cases d with
  | bool => decide
  | int s e => cases s <;> cases e <;> decide
  | uint s e => cases s <;> cases e <;> decide
  | float s e => cases s <;> cases e <;> decide
  | raw n =>
    have hl : byteLen (str!"Raw { size: " ++ dec n ++ str!" }") ≠ 3 := by
      intro h
      have := (byteLen3 h).1
      simp only [List.length_append, List.length_cons, List.length_nil] at this
      omega
    rw [DataType.display]
    unfold DataType.visitStr
    rw [if_neg (by simp), if_neg (by simp), if_neg (by simp)]
    simp only [List.cons_append] at hl ⊢
    rw [if_neg hl]
    rfl

/-- **C111.** The printed form of a data type tells the type, and no text that is a name of a data type in metadata is
the printed form of any data type. -/
theorem C111 :
    (∀ a b : DataType, a.display = b.display → a = b) ∧
      ∀ (d e : DataType) (s : Str), DataType.visitStr s = .ok d → s ≠ e.display :=
  ⟨DataType.display_inj, fun _ e _ h hs => by rw [hs, DataType.visitStr_display] at h; cases h⟩

example : (DataType.raw 24).display = str!"Raw { size: 24 }" ∧
    (DataType.int .B4 .little).display = str!"Int { size: B4, endian: Little }" ∧
    DataType.visitStr str!"r24" = .ok (.raw 24) ∧ DataType.visitStr str!"<i4" = .ok (.int .B4 .little) := by decide

end Zarr
