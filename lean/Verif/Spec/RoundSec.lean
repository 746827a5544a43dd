import Verif.Spec.RoundDoc
import Verif.Spec.Headings
/-! # Specification: documents with sections -/
namespace Jotdown.Round
open Jotdown Jotdown.Notation

/-- A heading with its level, id and content, the blocks until the next heading, and lines of attributes before the heading. -/
structure Head where
  level : Nat
  id : Bytes
  title : List Inl
  body : List Blk
  attrs : List (Bytes × List (Attr.Item × Bytes)) := []
  deriving Repr, Inhabited

/-- A section: a heading with the blocks after it, and the sections in it. -/
inductive Sec
  | mk (head : Head) (subs : List Sec)
  deriving Repr, Inhabited

def Sec.head : Sec → Head
  | .mk h _ => h

mutual
/-- The headings of a section in order. -/
def Sec.heads : Sec → List Head
  | .mk h subs => h :: headsOf subs
def headsOf : List Sec → List Head
  | [] => []
  | s :: ss => s.heads ++ headsOf ss
end

/-- A document: the blocks before the first heading, and the sections. -/
structure Doc where
  front : List Blk
  secs : List Sec
  deriving Repr, Inhabited

/-! ## Writing -/

def hashes (n : Nat) : Bytes := List.replicate n (c! '#')

/-- Lines of attributes. -/
def attrLines (as : List (Bytes × List (Attr.Item × Bytes))) : List Bytes := as.map (fun a => Attr.writeAttrs a.1 a.2 ++ [c! '\n'])

/-- The attributes on these lines. -/
def attrElems (as : List (Bytes × List (Attr.Item × Bytes))) : Attr.Attributes := as.flatMap (fun a => a.2.map (·.1.elem))

/-- A blank line. -/
def gap (b : Bool) : List Bytes := if b then [[c! '\n']] else []

/-- The lines of a heading: each begins with as many `#` as the level. -/
def titleLines (level : Nat) (title : List Inl) : List Bytes := (splitNl (prints title ++ [c! '\n'])).map (fun l => hashes level ++ c! ' ' :: l)

/-- The lines of headings and blocks in order, with blank lines in between; attributes come right before the heading. -/
def headLines : List Head → List Bytes
  | [] => []
  | h :: hs => attrLines h.attrs ++ (titleLines h.level h.title ++ (gap (!h.body.isEmpty || !hs.isEmpty) ++ (blkLines h.body ++ (gap (!h.body.isEmpty && !hs.isEmpty) ++ headLines hs))))

/-- The lines of a document. -/
def Doc.lines (d : Doc) : List Bytes := blkLines d.front ++ (gap (!d.front.isEmpty && !d.secs.isEmpty) ++ headLines (headsOf d.secs))

/-- The text of a document. -/
def Doc.write (d : Doc) : Bytes := d.lines.flatten

/-! ## Events -/

/-- The events of a heading and the blocks after it; `after` tells that another heading comes. -/
def Head.events (h : Head) (after : Bool) : List Event :=
  .start (.heading h.level true h.id) [] :: (joined (inlEvents h.title) ++ .end (.heading h.level true h.id) :: (blankAfter (!h.body.isEmpty || after) ++ blkEvents h.body after))

mutual
/-- The events of a section; it has the attributes of the heading. -/
def Sec.events : Sec → Bool → List Event
  | .mk h subs, after => .start (.section h.id) (attrElems h.attrs) :: (h.events (!subs.isEmpty || after) ++ (secEvents subs after ++ [.end (.section h.id)]))
def secEvents : List Sec → Bool → List Event
  | [], _ => []
  | s :: ss, after => s.events (!ss.isEmpty || after) ++ secEvents ss after
end

/-- The events of a document. -/
def Doc.events (d : Doc) : List Event := .start .document [] :: (blkEvents d.front (!d.secs.isEmpty) ++ (secEvents d.secs false ++ [.end .document]))

/-! ## What can be written -/

/-- Lines of attributes that can be written. -/
def AttrLinesOk (as : List (Bytes × List (Attr.Item × Bytes))) : Prop :=
  ∀ a ∈ as, (∀ c ∈ a.1, isWs c = true) ∧ Attr.WellSeparated a.2 ∧ c! '\n' ∉ Attr.writeAttrs a.1 a.2

def Head.Ok (h : Head) : Prop := 1 ≤ h.level ∧ h.level < 65536 ∧ TitleOk h.title ∧ BlksOk h.body ∧ AttrLinesOk h.attrs

mutual
/-- Sections that can be written: the level is higher than that of the section around it, and not higher than that of the section before. -/
def Sec.Ok : Sec → Prop
  | .mk h subs => h.Ok ∧ SecsOk h.level subs
def SecsOk (outer : Nat) : List Sec → Prop
  | [] => True
  | s :: ss => outer < s.head.level ∧ s.Ok ∧ (∀ t, ss.head? = some t → t.head.level ≤ s.head.level) ∧ SecsOk outer ss
end

/-- Documents that can be written; the ids of the headings are the ones given by attributes or the automatic ones (`IdsOf`). -/
def Doc.Ok (d : Doc) : Prop := BlksOk d.front ∧ SecsOk 0 d.secs ∧ IdsOf [] (headingsOf d.events)

end Jotdown.Round
