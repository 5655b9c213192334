import Verif.HddlText
import Verif.Props.TransPrint

/-! # C67: the names of the operators are read back -/

namespace Verif.Props

open Verif.Htn Verif.Sas

/-- The names for a problem, given those of its tasks and methods. -/
def namesOf (P : Problem) (task meth : Nat → List Char) : Names := ⟨task, meth, reoOf P, fun m => (P.sub m).length⟩

theorem prefix_eq {P : Problem} {vars : List (Nat × Nat)} {nA nT : Nat} (hin : ToInput P vars nA nT) {m : Nat} (hm : m < P.numMethods) :
    (reoOf P m).first = primLead P m ∧ (reoOf P m).prefixTasks = (P.sub m).take (primLead P m) := by
  have hr := reoOf_eq hin hm
  obtain ⟨h1, -, h3, -⟩ := reorder_range hin.wf hin.totOK hm rfl
  have hlen := congrArg List.length h1
  have hf : (reoOf P m).first = leadOf P m := by rw [hr]
  refine ⟨by rw [hf, hin.leadOf hm], ?_⟩
  rw [prefixTasks_eq (l := tasksOf P (fun m => List.range (P.sub m).length) m) (by rw [hr]) (by rw [hf]; omega), hf, h1, hin.leadOf hm]

/-- **C67** (partial: for names that do not contain the keywords): the line of the operator of an action in the plan is read as
this action with this head and name, that of a method as this method with its leading actions, and with the points of the stack
of its other subtasks; and the leading actions that are read to write the operator are those of the method. -/
theorem C67_names_partial (P : Problem) (vars : List (Nat × Nat)) (nA nT : Nat) (hin : ToInput P vars nA nT)
    (task meth : Nat → List Char) (hT : (nT : Int) ≤ 2147483647) (j : Nat) :
    (∀ a < nA, (j : Int) ≤ 2147483647 → ¬ "firstPrim".toList <:+: task a →
      (namesOf P task meth).readLine ((namesOf P task meth).line (.prim a j)) = .ok (.prim a j (task a)) ∧
      readLead ((namesOf P task meth).op (.prim a j)) = .ok none) ∧
    ∀ m < P.numMethods, (P.numMethods : Int) ≤ 2147483647 → (j + (P.sub m).length : Int) ≤ 2147483647 →
      ((∀ t ∈ P.sub m, P.prim t = true) → P.sub m ≠ [] → ¬ "subtasks".toList <:+: meth m) →
      (primLead P m = 0 → ¬ "firstPrim".toList <:+: meth m) →
      ∃ heads : List Int, (∀ x, x < (P.sub m).length - primLead P m → heads[x]? = some ((j + x : Nat) : Int)) ∧
      (namesOf P task meth).readLine ((namesOf P task meth).line (.meth m j)) =
        .ok (.meth m j (((P.sub m).take (primLead P m)).map Nat.cast) heads (meth m)) ∧
      readLead ((namesOf P task meth).op (.meth m j)) =
        .ok (if primLead P m = 0 then none else some (((P.sub m).take (primLead P m)).map Nat.cast)) := by
  have hA := hin.nA_le
  refine ⟨fun a ha hj hn => ⟨readLine_prim (by rw [Parse.intMax]; omega) hj, readLead_prim hn⟩, ?_⟩
  intro m hm hM hj hs hf
  obtain ⟨h1, h2⟩ := prefix_eq hin hm
  have hle : primLead P m ≤ (P.sub m).length := by
    rw [primLead]
    exact (List.takeWhile_sublist _).length_le
  have hpl : ((namesOf P task meth).reo m).prefixTasks.length = ((namesOf P task meth).reo m).first := by
    show (reoOf P m).prefixTasks.length = (reoOf P m).first
    rw [h1, h2, List.length_take]
    omega
  have hpt : ∀ t ∈ ((namesOf P task meth).reo m).prefixTasks, (t : Int) ≤ Parse.intMax := by
    show ∀ t ∈ (reoOf P m).prefixTasks, _
    intro t ht
    rw [h2] at ht
    have := hin.sub_lt m hm t (List.mem_of_mem_take ht)
    rw [Parse.intMax]
    omega
  have hline := readLine_meth (W := namesOf P task meth) (m := m) (j := j) (by rw [Parse.intMax]; omega) hj
    (by show (reoOf P m).first ≤ (P.sub m).length; rw [h1]; exact hle) hpl hpt (by
      show (reoOf P m).first = (P.sub m).length → 0 < (P.sub m).length → _
      intro he hpos
      rw [h1] at he
      have hall : ∀ t ∈ P.sub m, P.prim t = true := by
        have : (P.sub m).takeWhile P.prim = P.sub m := (List.takeWhile_sublist _).eq_of_length he
        exact List.takeWhile_eq_self_iff.1 this
      intro hi
      rcases List.infix_concat_iff.1 hi with h | h
      · obtain ⟨u, hu⟩ := h
        have := congrArg List.getLast? hu
        simp [cSub] at this
      · exact hs hall (List.length_pos_iff.1 hpos) h)
  have hlead := readLead_meth (W := namesOf P task meth) (m := m) (j := j) hpl hpt (by
    show (reoOf P m).first = 0 → _
    rw [h1]
    exact hf)
  have e1 : ((namesOf P task meth).reo m).first = primLead P m := h1
  have e2 : ((namesOf P task meth).reo m).prefixTasks = (P.sub m).take (primLead P m) := h2
  rw [e1, e2] at hline hlead
  refine ⟨_, ?_, hline, hlead⟩
  intro x hx
  show (subHeadsOf (P.sub m).length (primLead P m) j)[x]? = _
  rw [subHeadsOf, if_pos (by omega), List.getElem?_map, List.getElem?_append_left (by simpa using hx), List.getElem?_range' hx]
  simp

/-- The other lines of a plan file: the costs, and the empty line at its end. -/
theorem C67_other_lines (W : Names) (cost : List Char) : W.readLine ("; cost = ".toList ++ cost) = .ok .skip ∧ W.readLine [] = .ok .skip := by
  constructor
  · rw [Names.readLine, if_neg, if_neg]
    · rintro ⟨-, h⟩
      have := congrArg List.head? h
      simp [cMethod] at this
    · rintro ⟨-, h⟩
      have := congrArg List.head? h
      simp [cPrimitive] at this
  · rfl

/-- The hypotheses are met: `trP` with names for its tasks and methods, method 0 and head 12. -/
example : (namesOf trP (fun _ => "drive[a,b]".toList) fun _ => "m_load".toList).readLine
    "(method(id[0],head[12],subtasks[12],firstPrim[0,1]): m_load)".toList = .ok (.meth 0 12 [0, 1] [12, 12, 12] "m_load".toList) ∧
    (namesOf trP (fun _ => "drive[a,b]".toList) fun _ => "m_load".toList).line (.meth 0 12) =
    "(method(id[0],head[12],subtasks[12],firstPrim[0,1]): m_load)".toList := by
  decide +kernel

/-- A method with actions only and the name `m_no_subtasks`: the plan cannot be read. -/
theorem C67_subtasks_violated : (namesOf trP (fun _ => "a".toList) fun _ => "m_no_subtasks".toList).readLine
    ((namesOf trP (fun _ => "a".toList) fun _ => "m_no_subtasks".toList).line (.meth 1 0)) = .error .throw := by
  decide +kernel

/-- An action with the name `firstPrim`: the problem cannot be written.  With the name `firstPrim_0_` action 0 is taken for a
leading action of every action with this name. -/
theorem C67_firstPrim_violated :
    readLead ((namesOf trP (fun _ => "firstPrim".toList) fun _ => "m".toList).op (.prim 1 0)) = .error .throw ∧
    readLead ((namesOf trP (fun _ => "firstPrim_0_".toList) fun _ => "m".toList).op (.prim 1 0)) = .ok (some [0]) := by
  decide +kernel

end Verif.Props
