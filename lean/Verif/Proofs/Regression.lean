import Verif.Model.Regression
import Verif.Proofs.PredictML
import Verif.Proofs.PredictReg

/-! Facts on the whole-network regression predictors. -/

namespace Verif
namespace Predictors
open Verif Verif.Spec Builder

theorem drop_blocks {p : Nat} : ∀ (k : Nat) (blocks : List (List ℚ)), (∀ b ∈ blocks, b.length = p) → blocks.flatten.drop (k * p) = (blocks.drop k).flatten := by
  intro k
  induction k with
  | zero => intro blocks _; simp
  | succ k ih =>
    intro blocks h
    cases blocks with
    | nil => simp
    | cons b bs =>
      have hb := h b (by simp)
      rw [List.drop_succ_cons, ← ih bs (fun b hb => h b (by simp [hb])), List.flatten_cons,
        show (k + 1) * p = b.length + k * p by rw [hb]; ring, ← List.drop_drop, List.drop_left]

theorem take_blocks {p : Nat} : ∀ (k : Nat) (blocks : List (List ℚ)), (∀ b ∈ blocks, b.length = p) → blocks.flatten.take (k * p) = (blocks.take k).flatten := by
  intro k
  induction k with
  | zero => intro blocks _; simp
  | succ k ih =>
    intro blocks h
    cases blocks with
    | nil => simp
    | cons b bs =>
      have hb := h b (by simp)
      rw [List.take_succ_cons, List.flatten_cons, List.flatten_cons, ← ih bs (fun b hb => h b (by simp [hb])),
        show (k + 1) * p = b.length + k * p by rw [hb]; ring, List.take_length_add_append]

/-- The values of a channel: the queues of the `m` edges come first, then their loads. -/
def chan (m : Nat) (Q L : Nat → ℚ → ℚ) (times : List ℚ) (j : Nat) : List ℚ := times.map (if j < m then Q j else L (j - m))

theorem chan_length (m : Nat) (Q L : Nat → ℚ → ℚ) (times : List ℚ) (j : Nat) : (chan m Q L times j).length = times.length := by simp [chan]

theorem channels (m : Nat) (Q L : Nat → ℚ → ℚ) (times : List ℚ) :
    ((List.range m).map (fun e => times.map (Q e))).flatten ++ ((List.range m).map (fun e => times.map (L e))).flatten =
      ((List.range (2 * m)).map (chan m Q L times)).flatten := by
  rw [← List.flatten_append]
  congr 1
  rw [two_mul, List.range_add, List.map_append]
  congr 1
  · refine List.map_congr_left (fun e he => ?_)
    simp [chan, List.mem_range.mp he]
  · rw [List.map_map]
    refine List.map_congr_left (fun e he => ?_)
    simp [chan]

theorem slice_channels {m p : Nat} {Q L : Nat → ℚ → ℚ} {times : List ℚ} (hl : times.length = p) {e : Nat} (he : e < m) :
    slice e (2 * p) ((List.range (2 * m)).map (chan m Q L times)).flatten = chan m Q L times (2 * e) ++ chan m Q L times (2 * e + 1) := by
  have hb : ∀ b ∈ (List.range (2 * m)).map (chan m Q L times), b.length = p := by
    intro b hb
    obtain ⟨j, _, rfl⟩ := List.mem_map.mp hb
    rw [chan_length, hl]
  unfold slice
  rw [show e * (2 * p) = (2 * e) * p by ring, drop_blocks _ _ hb, take_blocks _ _ (fun b h => hb b (List.mem_of_mem_drop h))]
  have h1 : ((List.range (2 * m)).map (chan m Q L times)).drop (2 * e) = chan m Q L times (2 * e) :: chan m Q L times (2 * e + 1) ::
      ((List.range (2 * m)).map (chan m Q L times)).drop (2 * e + 2) := by
    rw [List.drop_eq_getElem_cons (by simp; omega), List.drop_eq_getElem_cons (by simp; omega)]
    simp
  rw [h1]
  simp

theorem maskedRows_channels {m p : Nat} {Q L : Nat → ℚ → ℚ} {times : List ℚ} (hl : times.length = p) (mask : Nat → Bool) :
    maskedRows m (2 * p) mask ((List.range (2 * m)).map (chan m Q L times)).flatten =
      (((List.range m).filter mask).map (fun e => chan m Q L times (2 * e) ++ chan m Q L times (2 * e + 1))).flatten := by
  unfold maskedRows
  congr 1
  refine List.map_congr_left (fun e he => ?_)
  exact slice_channels hl (List.mem_range.mp (List.mem_filter.mp he).1)

theorem reversedTimes_length (t : ℚ) (p : Nat) : (reversedTimes t p).length = p := by simp [reversedTimes]

theorem reversedTimes_get {t : ℚ} {p i : Nat} (hi : i < p) : (reversedTimes t p)[i]? = some (t + ((p : ℚ) - 1 - i)) := by
  unfold reversedTimes
  rw [List.getElem?_map, List.getElem?_range hi]
  simp only [Option.map_some]
  congr 1
  ring

/-- The row of inputs of the model. -/
def regRow (c : Setup) (t : ℚ) (Q L : Nat → ℚ → ℚ) : List ℚ :=
  t :: (((List.range c.edges).filter c.output).map (fun e => chan c.edges Q L (reversedTimes t c.past) (2 * e) ++
    chan c.edges Q L (reversedTimes t c.past) (2 * e + 1))).flatten

theorem fullNetReg_eq {c : Setup} {model : List (List ℚ) → Py (List (List ℚ))} {t : ℚ} {flow : DFlow} {L : Nat → PL} (h : Sees flow c.edges L)
    (ht : flow.phi = t) :
    (fullNetReg c model).predict t flow = (do
      let out ← model [regRow c t (fun e => (flow.queues e).fn) (fun e => (L e).fn)]
      let raw ← rd out 0
      mapPy (fun e => if c.output e then edgeFn c 1 t ((flow.queues e).fn t) (slice (countMask c.output e) c.future (clip raw)) e
        else pure ⟨[t], [0], 0, 0, ⊥, ⊤⟩) (List.range c.edges)) := by
  subst ht
  unfold fullNetReg
  simp only
  rw [PL.new_ok (PL.wf_const flow.phi 0), ok_bind, loads_eq h.load, ok_bind, if_neg (by simp),
    mapPy_eq (g := fun e => (reversedTimes flow.phi c.past).map (flow.queues e).fn)
      (fun e he => mapPy_eq (fun x _ => (h.queues e (List.mem_range.mp he)).eval x)), ok_bind,
    mapPy_eq (g := fun e => (reversedTimes flow.phi c.past).map (L e).fn)
      (fun e he => by rw [rd_loads L (List.mem_range.mp he), ok_bind]; exact mapPy_eq (fun x _ => (h.loads e (List.mem_range.mp he)).eval x)), ok_bind,
    channels c.edges (fun e => (flow.queues e).fn) (fun e => (L e).fn), maskedRows_channels (reversedTimes_length _ _)]
  unfold regRow
  congr 1
  funext out
  congr 1
  funext raw
  refine Builder.mapPy_congr (fun e he => ?_)
  split
  · rw [(h.queues e (List.mem_range.mp he)).eval flow.phi, ok_bind]
  · rfl

end Predictors
end Verif
