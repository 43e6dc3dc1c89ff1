/-
Specification vocabulary for the interpreter properties: the grammar of token streams,
abstract configuration documents, and what a document means.  Nothing here refers to how
the interpreter works.
-/
import Verif.Config.BlockModel
import Verif.Config.LexSpec

namespace Softlib.Config

/-- One statement of the configuration language, with the number of open blocks before and
after it. -/
inductive Stmt1 : Nat → List Tok → Nat → Prop
  | setting {d : Nat} {n e v : Tok} {vs : List Tok} {s : Tok} :
      n.ty = .name → e.ty = .equals → v.ty = .value → (∀ x ∈ vs, x.ty = .value) →
      s.ty = .endStatement → Stmt1 d (n :: e :: v :: (vs ++ [s])) d
  | openBlock {d : Nat} {t n l : Tok} :
      t.ty = .blocktype → n.ty = .blockname → l.ty = .blockStart → Stmt1 d [t, n, l] (d + 1)
  | openBlockSec {d : Nat} {t n lp m rp l : Tok} :
      t.ty = .blocktype → n.ty = .blockname → lp.ty = .lpar → m.ty = .name → rp.ty = .rpar →
      l.ty = .blockStart → Stmt1 d [t, n, lp, m, rp, l] (d + 1)
  | closeBlock {d : Nat} {c : Tok} : c.ty = .blockEnd → Stmt1 (d + 1) [c] d

/-- A sequence of statements taking `d` open blocks to `e` open blocks, never closing a
block that is not open. -/
inductive Stmts : Nat → List Tok → Nat → Prop
  | nil {d : Nat} : Stmts d [] d
  | cons {d d' e : Nat} {u us : List Tok} : Stmt1 d u d' → Stmts d' us e → Stmts d (u ++ us) e

/-- A part of a configuration document. -/
inductive Item where
  /-- `name = v vs… ;` -/
  | set (name v : Str) (vs : List Str)
  /-- `ty name [(sec)] { body }` -/
  | blk (ty name : Str) (sec : Option Str) (body : List Item)

/-- Words of an optional secondary type. -/
def secWords : Option Str → List Str
  | none => []
  | some s => [['('], s, [')']]

mutual
/-- The words and punctuation marks of a document, in order. -/
def Item.words : Item → List Str
  | .set n v vs => n :: ['='] :: v :: (vs ++ [[';']])
  | .blk t n sec body => t :: n :: (secWords sec ++ (['{'] :: (itemsWords body ++ [['}']])))
def itemsWords : List Item → List Str
  | [] => []
  | i :: is => i.words ++ itemsWords is
end

/-- A word that is not a punctuation mark by itself. -/
def NotPunct (s : Str) : Prop := ∀ c, IsPunct c → s ≠ [c]

mutual
/-- The words are usable in their place: no punctuation marks; setting names and secondary
types are not block types, block types are. -/
def Item.Valid (bts : List Str) : Item → Prop
  | .set n v vs => NotPunct n ∧ n ∉ bts ∧ NotPunct v ∧ ∀ x ∈ vs, NotPunct x
  | .blk t n sec body =>
    NotPunct t ∧ t ∈ bts ∧ NotPunct n ∧ (∀ s, sec = some s → NotPunct s ∧ s ∉ bts) ∧
    itemsValid bts body
def itemsValid (bts : List Str) : List Item → Prop
  | [] => True
  | i :: is => i.Valid bts ∧ itemsValid bts is
end

/-- Position of a registered block type. -/
def typeId (bts : List Str) (t : Str) : Nat := bts.idxOf t

/-- The settings written directly in a document (not in its blocks). -/
def settingsOf : List Item → List Setting
  | [] => []
  | .set n v vs :: is => ⟨n, v :: vs, false⟩ :: settingsOf is
  | .blk _ _ _ _ :: is => settingsOf is

mutual
/-- The tree of a block. -/
def Item.tree (bts : List Str) : Item → List Block
  | .set _ _ _ => []
  | .blk t n sec body =>
    [.mk (typeId bts t) n (sec.getD []) (settingsOf body) (itemsTree bts body)]
/-- The blocks written in a document. -/
def itemsTree (bts : List Str) : List Item → List Block
  | [] => []
  | i :: is => i.tree bts ++ itemsTree bts is
end

/-- The whole document as a tree. -/
def docTree (bts : List Str) (items : List Item) : Block :=
  .mk 0 "<root>".toList [] (settingsOf items) (itemsTree bts items)

/-- Names of the settings written directly in a document. -/
def setNames : List Item → List Str
  | [] => []
  | .set n _ _ :: is => n :: setNames is
  | .blk _ _ _ _ :: is => setNames is

/-- Types and names of the blocks written directly in a document. -/
def blkKeys : List Item → List (Str × Str)
  | [] => []
  | .set _ _ _ :: is => blkKeys is
  | .blk t n _ _ :: is => (t, n) :: blkKeys is

mutual
/-- Nothing is defined twice, at any level. -/
def Item.Distinct : Item → Prop
  | .set _ _ _ => True
  | .blk _ _ _ body => (setNames body).Nodup ∧ (blkKeys body).Nodup ∧ itemsDistinct body
def itemsDistinct : List Item → Prop
  | [] => True
  | i :: is => i.Distinct ∧ itemsDistinct is
end

def DocDistinct (items : List Item) : Prop :=
  (setNames items).Nodup ∧ (blkKeys items).Nodup ∧ itemsDistinct items

mutual
/-- The values a document gives to the setting `n` of the block reached by the path `p` of
(type, name) pairs, if it defines it: the last definition counts. -/
def Item.defines (p : List (Str × Str)) (n : Str) : Item → Option (List Str)
  | .set m v vs => if p = [] ∧ m = n then some (v :: vs) else none
  | .blk t m _ body =>
    match p with
    | [] => none
    | k :: p' => if (t, m) = k then lastDef p' n body else none
def lastDef (p : List (Str × Str)) (n : Str) : List Item → Option (List Str)
  | [] => none
  | i :: is =>
    match lastDef p n is with
    | some v => some v
    | none => i.defines p n
end

mutual
/-- Does a document open the block reached by the path `p`? -/
def Item.opens (p : List (Str × Str)) : Item → Bool
  | .set _ _ _ => false
  | .blk t m _ body =>
    match p with
    | [] => false
    | k :: p' => (t, m) == k && (p' == [] || itemsOpen p' body)
def itemsOpen (p : List (Str × Str)) : List Item → Bool
  | [] => false
  | i :: is => i.opens p || itemsOpen p is
end

/-- The block reached in a tree by (type id, name) pairs, the way a user navigates with
`GetConfigBlock`. -/
def Block.find : List (Nat × Str) → Block → Option Block
  | [], b => some b
  | (t, n) :: p, b =>
    match b.subs.find? (fun c => c.ty == t && c.name == n) with
    | none => none
    | some c => Block.find p c

/-- The values of the setting `n` of the block at path `p`. -/
def Block.valuesAt (b : Block) (p : List (Nat × Str)) (n : Str) : Option (List Str) :=
  match b.find p with
  | none => none
  | some c => (c.settings.find? (fun s => s.name == n)).map Setting.values

/-- Path in type ids of a path in type names. -/
def idPath (bts : List Str) (p : List (Str × Str)) : List (Nat × Str) :=
  p.map (fun k => (typeId bts k.1, k.2))

/-- No block holds two settings of one name or two sub-blocks of one type and name. -/
inductive Block.Uniq : Block → Prop
  | mk {ty : Nat} {name sec : Str} {settings : List Setting} {subs : List Block} :
      (settings.map Setting.name).Nodup → (subs.map (fun c => (c.ty, c.name))).Nodup →
      (∀ c ∈ subs, Block.Uniq c) → Block.Uniq (.mk ty name sec settings subs)

end Softlib.Config
