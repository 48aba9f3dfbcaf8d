import Verif.Spec.Emits
import Verif.Proofs.RunProps
/-
Runs yield only data that the shape of the rules allows.
-/
namespace Verif
open Spec

/-- What a goal can yield. -/
def GoalEmits (refs : List Rule) : Goal → List MetaData → Prop
  | .rule r, d => Emits refs r d
  | .sel rs, d => ∃ r ∈ rs, Emits refs r d
  | .seq rs, d => ∀ id, Emits refs (.sequence rs id) d
  | .rep r, d => ∀ id, Emits refs (.repeat_ r true id) d
  | .sepTail r b t, d => ∀ o id d₀, Emits refs r d₀ → Emits refs (.separateBy r b o t id) (d₀ ++ d)
  | .lines r i id _ _, d => Emits refs (.lines r i id) d
  | .line r _ _, d => Emits refs r d

theorem named_datum {prop off len f} : (named prop off len f).map Tok.data = datum prop f := by
  cases prop <;> rfl

theorem wrapped_inNode {prop off len ts} :
    (wrapped prop off len ts).map Tok.data = inNode prop (ts.map Tok.data) := by
  cases prop <;> simp [wrapped, inNode]

theorem run_emits {E : Env} {g p i o j tr} (h : Run E g p i o j tr) :
    ∀ n ts, o = some (n, ts) → GoalEmits E.refs g (ts.map Tok.data) := by
  induction h with
  | ws_ok => intro n ts he; cases he; exact .whitespace
  | tag_ok | notTag_ok => intro n ts he; cases he; rw [named_datum]; exact .tag
  | until_ok => intro n ts he; cases he; rw [named_datum]; exact .untilAny _
  | untilWs_ok => intro n ts he; cases he; rw [named_datum]; exact .untilAnyOrWs _
  | text_ok => intro n ts he; cases he; rw [named_datum]; exact .text _
  | num_ok => intro n ts he; cases he; rw [named_datum]; exact .number _
  | node_ok hr h ih => intro n ts he; cases he; rw [wrapped_inNode]; exact .node hr (ih _ _ rfl)
  | select h ih => intro n ts he; obtain ⟨r, hr, h⟩ := ih _ _ he; exact .select hr h
  | sel_here h ih => intro n ts he; cases he; exact ⟨_, by simp, ih _ _ rfl⟩
  | sel_next h h' ih ih' =>
    intro n ts he
    obtain ⟨r, hr, h⟩ := ih' _ _ he
    exact ⟨r, by simp [hr], h⟩
  | fast_hit _ _ _ hr h ih | fastTail_hit _ _ _ hr h ih =>
    intro n ts he; exact .fastSelect (List.mem_of_getElem? hr) (ih _ _ he)
  | fastTail_miss _ _ _ hr h ih =>
    intro n ts he; exact .fastSelect (List.mem_of_getLast? hr) (ih _ _ he)
  | fastTail_next _ _ _ _ _ hr _ _ ih =>
    intro n ts he; exact .fastSelect (List.mem_of_getLast? hr) (ih _ _ he)
  | sequence h ih => intro n ts he; exact ih _ _ he _
  | seq_nil => intro n ts he; cases he; exact fun _ => .seq_nil
  | seq_cons h h' ih ih' =>
    intro n ts he
    obtain ⟨m, us, rfl, rfl, rfl⟩ := before_some he
    rw [List.map_append]
    exact fun id => .seq_cons (ih _ _ rfl) (ih' _ _ rfl id)
  | repeat_opt h ih => intro n ts he; exact ih _ _ he _
  | repeat_ok h h' ih ih' =>
    intro n ts he
    obtain ⟨m, us, rfl, rfl, rfl⟩ := before_some he
    rw [List.map_append]
    exact .rep_cons (ih _ _ rfl) (ih' _ _ rfl _)
  | rep_stop => intro n ts he; cases he; exact fun _ => .rep_nil
  | rep_more h h' ih ih' =>
    intro n ts he
    obtain ⟨m, us, rfl, rfl, rfl⟩ := before_some he
    rw [List.map_append]
    exact fun id => .rep_cons (ih _ _ rfl) (ih' _ _ rfl id)
  | sep_none => intro n ts he; cases he; exact .sep_none
  | sep_first h h' ih ih' =>
    intro n ts he
    obtain ⟨m, us, rfl, rfl, rfl⟩ := before_some he
    rw [List.map_append]
    exact ih' _ _ rfl _ _ _ (ih _ _ rfl)
  | sep_stop => intro n ts he; cases he; intro o id d h; simpa using .sep_one h
  | sep_trail h h' ih ih' => intro n ts he; cases he; exact fun o id d hd => .sep_trail hd (ih _ _ rfl)
  | sep_more h h' h'' ih ih' ih'' =>
    intro n ts he
    obtain ⟨m, us, rfl, rfl, rfl⟩ := before_some he
    simp only [List.map_append, List.append_assoc]
    exact fun o id d hd => .sep_more hd (ih _ _ rfl) (ih'' _ _ rfl _ _ _ (ih' _ _ rfl))
  | lines h ih => intro n ts he; exact ih _ _ he
  | lines_done => intro n ts he; cases he; exact .lines_nil
  | lines_stop => intro n ts he; cases he; exact .lines_nil
  | lines_more hn h h' ih ih' =>
    intro n ts he
    obtain ⟨m, us, rfl, rfl, rfl⟩ := before_some he
    rw [List.map_append]
    exact .lines_cons (ih _ _ rfl) (ih' _ _ rfl)
  | line_plain h ih => intro n ts he; exact ih _ _ he
  | line_body ha hc hd hi h ih | line_align ha hc hm hi h ih =>
    intro n ts he
    obtain ⟨m, us, rfl, rfl, rfl⟩ := before_some he
    simpa [GoalEmits] using ih _ _ rfl
  | optional_none => intro n ts he; cases he; exact .opt_none
  | optional_some h ih => intro n ts he; exact .opt_some (ih _ _ he)
  | not_ok => intro n ts he; cases he; exact .not
  | _ => intro n ts he; cases he

end Verif
