import Verif.Mail.SlotProps
import Verif.Mail.SeqProps
import Verif.Mail.NetProps

/-! # C114: concrete cases -/

namespace Fundsp.Mail
open Fundsp.Net Fundsp.Slot

/-! ## Slots -/

/-- `C114_slot_kept` and `C114_slot_partial`: of three units set in a row none is freed by the backend. -/
example : ((SlotSt.new labUnits 1024 1 (0, 0)).run labUnits labProc 1024 (Slot.demo ++ [.tick [], .reset])).post.lost = [] ∧
    ((handed Slot.demo).map Prod.fst) = [1, 2, 3] :=
  ⟨C114_slot_partial labUnits labProc 1024 1022 (by norm_num) 1 (0, 0) _ (by simp [Slot.demo, Roomy]), by simp [Slot.demo, handed]⟩

example : let s := (SlotSt.new labUnits 1024 1 (0, 0)).run labUnits labProc 1024 Slot.demo
    ((s.back.current :: (s.back.next.toList ++ s.back.latest.toList ++ s.back.queue.map (·.unit) ++ s.post.box ++ s.post.taken ++ s.post.lost)).map Prod.fst).Perm
      [0, 1, 2, 3] := by
  have h := C114_slot_kept labLab 1024 1 (0, 0) Slot.demo
  simpa [Slot.demo, handed] using h

/-- `C114_violation_slot` with 1026 units. -/
example : ((SlotSt.new labUnits 1024 1 (0, 0)).run labUnits labProc 1024
    ([.set ⟨.smooth, 1, (1, 0)⟩, .set ⟨.smooth, 1, (2, 0)⟩, .tick []] ++ (List.replicate 1024 (⟨.smooth, 1, (3, 0)⟩ : Upd (ℕ × ℝ) ℝ)).map .set ++
      [.tick [], .reset])).post.lost ≠ [] :=
  C114_violation_slot labUnits labProc 1024 (by norm_num) 1 (0, 0) _ _ _ _ _ ⟨rfl, rfl⟩ ⟨rfl, rfl⟩ (fun _ _ => ⟨rfl, rfl⟩) List.length_replicate

/-- `C114_slot_freed`: two units have come back, the next `set` frees them. -/
example : ((SlotSt.mk (Back.new labUnits 1 (0, 0)) ⟨1024, true, [(1, 0), (2, 0)], [], []⟩).step labUnits labProc 1024 (.set ⟨.smooth, 1, (3, 0)⟩)).post.taken =
    [(1, 0), (2, 0)] := rfl

/-! ## Sequencers -/

open Fundsp.Seq in
/-- `C114_seq_few`: two events that end, and a reset. -/
example (H : Heap ℝ rateUnit.σ) (ease : Seq.Fade → ℝ → ℝ) :
    let e : Nat → Ev ℝ rateUnit.σ := fun k => ⟨(0 : ℝ), 0, some 1, .smooth, 0, 0, k⟩
    let cs : List (SCall ℝ rateUnit.σ 1) := [.op (.front (.push (e 1))), .op (.front (.push (e 2))), .op .tick, .op .tick, .op .tick, .op .reset]
    ((SeqSt.new 2048 false 1).run rateUnit H ease (fun r _ => r) 2048 1 cs).post.lost = [] ∧ (pushed cs).map Ev.id = [1, 2] := by
  intro e cs
  exact ⟨C114_seq_few rateUnit H ease (fun r _ => r) 2048 false 1 cs (by simp [cs, pushed, callEvs]), by simp [cs, pushed, callEvs, e]⟩

open Fundsp.Seq in
/-- `C114_violation_seq`: a score of 2048 notes after one second, and one more. -/
example (H : Heap ℝ rateUnit.σ) (ease : Seq.Fade → ℝ → ℝ) :
    let e : Ev ℝ rateUnit.σ := ⟨(0 : ℝ), 1, some 2, .smooth, 0, 0, 7⟩
    ((SeqSt.new 2048 false 44100).run rateUnit H ease (fun r _ => r) 2048 44100
      ((List.replicate 2048 e).map (fun e => .op (.front (.push e))) ++ [.op .tick, .op (.front (.push e)), .op .reset])).post.lost.length = 1 := by
  intro e
  exact (C114_violation_seq rateUnit H ease (fun r _ => r) 2048 (by norm_num) 44100 (List.replicate 2048 e) List.length_replicate
    (fun x hx => by rw [List.eq_of_mem_replicate hx]; norm_num [e]) e).1

/-! ## Networks -/

/-- A network with one node. -/
noncomputable def oneNode (u : ℕ × ℝ) (ds : List (NodeEdit (ℕ × ℝ) ℝ)) : Net (ℕ × ℝ) ℝ :=
  { Net.push labUnits (Net.new 1 0 1) 5 u with order := some [0], editQueue := ds }

theorem oneNode_fit (u : ℕ × ℝ) (ds : List (NodeEdit (ℕ × ℝ) ℝ)) (hd : ∀ d ∈ ds, d.index = 0) : Fit (oneNode u ds) := by
  refine ⟨fun d h => ?_, fun id i hi => ?_⟩
  · rw [hd d h]; simp [oneNode, Net.push, Net.new]
  · simp only [oneNode, Net.push, Net.new, IdMap.get, IdMap.insert, IdMap.erase, List.filter_nil, List.lookup_cons, List.length_nil] at hi
    split at hi
    · cases hi; simp [oneNode, Net.push, Net.new]
    · simp at hi

/-- `C114_net_kept`, `C114_net_few`: a commit with two crossfades on the same node. -/
example :
    let ds : List (NodeEdit (ℕ × ℝ) ℝ) := [⟨some (2, 0), 5, 0, .smooth, 1⟩, ⟨some (3, 0), 5, 0, .smooth, 1⟩]
    let s := (NetSt.new 1024 (oneNode (0, 0) [])).run labUnits labProc 1024 [.commit (oneNode (1, 0) ds), .tick [], .tick [], .tick []]
    s.post.lost = [] ∧
    ((netUnits s.net ++ s.queue.flatMap msgUnits ++ s.post.box.flatten ++ s.post.taken.flatten ++ s.post.lost.flatten).map Prod.fst).Perm [0, 1, 2, 3] := by
  intro ds s
  constructor
  · refine C114_net_few 1024 _ _ fun pre hpre => ?_
    have h1 : ∀ cs : List (NCall (ℕ × ℝ) ℝ), ((NetSt.new 1024 (oneNode (0, 0) [])).run labUnits labProc 1024 cs).queue.length ≤ cs.length := by
      intro cs
      induction cs using List.reverseRecOn with
      | nil => exact le_rfl
      | append_singleton cs c ih =>
        rw [net_run_append]
        simp only [NetSt.run, List.foldl_cons, List.foldl_nil, List.length_append, List.length_cons, List.length_nil] at ih ⊢
        generalize cs.foldl (NetSt.step labUnits labProc 1024) (NetSt.new 1024 (oneNode (0, 0) [])) = t at ih
        cases c <;> simp only [NetSt.step]
        · split <;> simp <;> omega
        · split <;> simp <;> omega
        all_goals exact Nat.zero_le _
    have h2 := h1 pre
    have h3 : pre.length ≤ 4 := hpre.length_le
    have h4 : fadesIn (oneNode (0, 0) []) = 0 := by simp [fadesIn, oneNode, Net.push, Net.new, Vertex.new, NodeEdit.empty]
    have h5 : fadesIn (oneNode (1, 0) ds) = 2 := by simp [fadesIn, oneNode, Net.push, Net.new, Vertex.new, NodeEdit.empty, ds]
    have h6 : fadesSent pre ≤ 2 := by
      obtain ⟨r, hr⟩ := hpre
      have h7 : ∀ a b : List (NCall (ℕ × ℝ) ℝ), fadesSent a ≤ fadesSent (a ++ b) := by
        intro a b
        induction a with
        | nil => exact Nat.zero_le _
        | cons c a ih => cases c <;> simp only [List.cons_append, fadesSent] <;> omega
      have h8 := h7 pre r
      rw [hr] at h8
      simpa [fadesSent, h5] using h8
    omega
  · have h := C114_net_kept labLab 1024 (oneNode (0, 0) []) (oneNode_fit _ _ (by simp)) [.commit (oneNode (1, 0) ds), .tick [], .tick [], .tick []] (by
      intro c hc
      simp only [List.mem_cons, List.not_mem_nil, or_false] at hc
      rcases hc with rfl | rfl | rfl | rfl
      · exact oneNode_fit _ _ (by simp [ds])
      all_goals exact trivial)
    have e : (netUnits (oneNode (0, 0) []) ++ sentUnits [.commit (oneNode (1, 0) ds), .tick [], .tick [], .tick []]).map Prod.fst = [0, 1, 2, 3] := by
      simp [netUnits, sentUnits, oneNode, Net.push, Net.new, Vertex.new, NodeEdit.empty, engUnits, editUnits, labUnits, ds]
    exact e ▸ h

/-- `C114_violation_net`: 1028 crossfades on one node in one commit. -/
example : ((NetSt.new 1024 (oneNode (0, 0) [])).run labUnits labProc 1024
    [.commit (oneNode (1, 0) (List.replicate 1028 ⟨some (2, 0), 5, 0, .smooth, 1⟩)), .tick []]).post.lost ≠ [] :=
  C114_violation_net 1024 (by norm_num) _ _ (oneNode_fit _ _ (fun d h => by rw [List.eq_of_mem_replicate h]))
    (by
      generalize hk : (1028 : ℕ) = k
      simp [fadesIn, oneNode, Net.push, Net.new, Vertex.new, NodeEdit.empty]
      omega) []

/-- `C114_net_freed`: a network has come back, the next commit frees it. -/
example [DecidableEq ℝ] : ((NetSt.mk [] (oneNode (0, 0) []) ⟨1024, true, [[(1, 0)]], [], []⟩).step labUnits labProc 1024 (.commit (oneNode (2, 0) []))).post.taken =
    [[(1, 0)]] := rfl

end Fundsp.Mail
