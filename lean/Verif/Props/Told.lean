import Verif.Lemmas.Told
import Verif.Props.Runtime
/-!
# C104: being told of the end of a watch
-/
namespace Verif.Props
open Verif Verif.Pkt Verif.Pred Verif.Env Verif.Query Verif.Matcher Verif.Rt Verif.Spec

variable {C : Type}

/-- **C104**: a callback is told of an end, and for which reason.  For every program, every set of reasons, every database and every main program: the program that
panics when it is told one of the reasons comes to a result exactly if the program itself comes to it without an end for one of them. -/
theorem told_exactly_partial (F : Reason → Bool) (p : Prog C) (db : Db) (main : Act C) (n : Nat) (rt : RT C) (c : C) (b : Bool) :
    run (loud F p) n (start db) main = .ok (rt, c, b) ↔ run p n (start db) main = .ok (rt, c, b) ∧ ∀ e ∈ rt.trace, ¬ Tells F e := by
  rw [((run_pair F p n).rel (start db) main).iff]
  have h0 : badCnt F (start db : RT C).trace = 0 := rfl
  rw [h0]
  refine and_congr_right fun _ => ?_
  show badCnt F rt.trace = 0 ↔ _
  unfold badCnt
  rw [List.length_eq_zero_iff, List.filter_eq_nil_iff]
  exact ⟨fun h e he ht => h e he (badEv_iff.2 ht), fun h e he ht => h e he (badEv_iff.1 ht)⟩

/-- **C104**: nothing happens to a watch after its end, so it is told at most once and after its last packet. -/
theorem told_last_partial {p : Prog C} (hq : QuietProg p) {rt : RT C} (hR : Reach p rt) {n : Nat} {why : Why} (hg : .gone n why ∈ rt.trace) :
    ∃ h, about n rt.trace = h ++ [.gone n why] ∧ ∀ w, .gone n w ∉ h := by
  obtain ⟨hI, hl⟩ := reach_inv hq hR
  have hm := mem_about hg
  rw [show Ev.num (.gone n why) = n from rfl] at hm
  rcases hI.cases hl hg with ⟨w, hm', hn, b, w0, out, b1, b2, b3, b4, b5, b6, b7, b8⟩ | ⟨b, calls, bk, why', b1, b2, b3, b4, b5⟩
  · exfalso
    have hh : about n rt.trace = _ := b8
    rw [hh] at hm
    unfold Birth.hist at hm
    rcases List.mem_cons.1 hm with hx | hx
    · cases hx
    · obtain ⟨e, _, he⟩ := List.mem_map.1 hx; cases he
  · have hh : about n rt.trace = b.hist calls ++ (if bk then [.broke n] else []) ++ [.gone n why'] := b4
    have hno : ∀ w, Ev.gone n w ∉ b.hist calls ++ (if bk then [.broke n] else []) := by
      intro w hw
      rcases List.mem_append.1 hw with hw | hw
      · unfold Birth.hist at hw
        rcases List.mem_cons.1 hw with hx | hx
        · cases hx
        · obtain ⟨e, _, he⟩ := List.mem_map.1 hx; cases he
      · cases bk with
        | true => rcases List.mem_singleton.1 hw with hx; cases hx
        | false => cases hw
    rw [hh] at hm
    rcases List.mem_append.1 hm with hm | hm
    · exact absurd hm (hno why)
    · cases List.mem_singleton.1 hm
      exact ⟨_, hh, hno⟩

/-! ### cases -/

/-- The ends in a run of the program that panics when it is told one of the reasons; `none` if it does. -/
def exTold (F : Reason → Bool) (qs : List (Cmd Nat)) : Option (List (Nat × Why)) :=
  match run (loud F exProg) 20 (start exDb) (exMain qs) with
  | .error _ => none
  | .ok (rt, _) => some (exGone rt.trace)

/-- A watch that is closed: its callback is told so and nothing else. -/
theorem told_example :
    exTold (fun r => decide (r = .closed)) [.watch [1] ⟨.log, true⟩ (exPreds []) 0, .stop [1] false] = none ∧
    exTold (fun r => decide (r ≠ .closed)) [.watch [1] ⟨.log, true⟩ (exPreds []) 0, .stop [1] false] = some [(0, .closed [1] false)] := by decide +kernel

/-- **C104 is false**: four kinds of ends are not told at all.  The callback breaks in the database; the query is used up by the database; the time of the
watch is over when it is made; its time is over later and it is removed while waiting. -/
theorem ends_untold :
    exTold (fun _ => true) [.watch [1] ⟨.log, true⟩ (exPreds []) 2] = some [(0, .inDb)] ∧
    exTold (fun _ => true) [.watch [1] ⟨.log, true⟩ (exPreds [limitStmt .query .less 1]) 0] = some [(0, .unmade)] ∧
    exTold (fun _ => true) [.watch [1] ⟨.log, true⟩ (exPreds [recvStmt .less 40]) 0] = some [(0, .late 50)] ∧
    (match run (loud (fun _ => true) { exProg with clock := fun i => 50 + 500 * i }) 20 (start exDb) (exMain [.watch [1] ⟨.log, true⟩ (exPreds [recvStmt .less 400]) 0, .idle]) with
      | .error _ => none
      | .ok (rt, _) => some (exGone rt.trace)) = some [(0, .collected 550)] := by decide +kernel

/-- **C104 is false** of watches that are replaced: a watch that takes the place of another one of the same id closes that one first, which is told `Closed`.
`Replaced` is told where a callback makes a watch of the same id while its own watch reads the database. -/
theorem replaced_told_closed :
    exTold (fun r => decide (r ≠ .closed)) [.watch [1] ⟨.log, true⟩ (exPreds []) 0, .watch [1] ⟨.log, true⟩ (exPreds []) 0] = some [(0, .closed [1] false)] ∧
    exTold (fun r => decide (r = .replaced)) [.watch [1] ⟨.log, true⟩ (exPreds []) 5] = none ∧
    exTold (fun r => decide (r ≠ .replaced)) [.watch [1] ⟨.log, true⟩ (exPreds []) 5] = some [(1, .stopped .replaced)] := by decide +kernel

end Verif.Props
