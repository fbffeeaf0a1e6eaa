import Verif.Lemmas.ReprBase
import Verif.Lemmas.SimNodes

/-! # Lemmas: `repr` shows no addresses -/

namespace RSM

theorem nodeReprN_twin (e : ReprEnv) {n : Nat} {h0 h : Heap} (T : History.Twin n h0 h) (d : Nat) (r : Ref) (hr : r < h0.next) :
    nodeReprN e h d (r + n) = nodeReprN e h0 d r := by
  induction d generalizing r with
  | zero => rfl
  | succ d ih =>
    have hb := T.bd r hr
    unfold nodeReprN
    dsimp only
    rw [T.get r hr]
    have e1 : (History.shiftRec n (h0.get r)).cls = (h0.get r).cls := rfl
    have e2 : (History.shiftRec n (h0.get r)).text = (h0.get r).text := rfl
    have e3 : (History.shiftRec n (h0.get r)).lang = (h0.get r).lang := rfl
    have e4 : (History.shiftRec n (h0.get r)).kids = (h0.get r).kids.map (· + n) := rfl
    rw [e1, e2, e3, e4]
    have ha : attrsRepr e h (r + n) (nodeReprN e h d) = attrsRepr e h0 r (nodeReprN e h0 d) := by
      refine attrsRepr_congr ?_ ?_ ?_ ?_ ?_ ?_ ?_ ?_ <;> rw [T.get r hr]
      any_goals rfl
      · show parentRepr h ((h0.get r).parent.map (· + n)) = _
        cases ep : (h0.get r).parent with
        | none => rfl
        | some p =>
          show (h.get (p + n)).cls.name = _
          rw [T.get p (hb.parent p ep)]
          rfl
      · intro _
        show targetRepr _ (History.shiftTarget n (h0.get r).target) = _
        cases et : (h0.get r).target with
        | none => rfl
        | str s => rfl
        | node x =>
          show ["target=".toList ++ nodeReprN e h d (x + n)] = _
          rw [ih x (hb.target x et)]
          rfl
    have hk : ((h0.get r).kids.map (· + n)).map (fun c => (h.get c).cls.name) =
        (h0.get r).kids.map fun c => (h0.get c).cls.name := by
      rw [List.map_map]
      refine List.map_congr_left fun c hc => ?_
      show (h.get (c + n)).cls.name = _
      rw [T.get c (hb.kids c hc)]
      rfl
    rw [ha, hk]
    congr 3
    simp only [ne_eq, List.map_eq_nil_iff]

/-- `repr` shows no addresses. -/
theorem noAddresses_repr (e : ReprEnv) : History.NoAddresses (nodeRepr e) := fun _ _ _ r T hr => nodeReprN_twin e T _ r hr

end RSM
