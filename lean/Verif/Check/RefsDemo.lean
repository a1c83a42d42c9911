import Verif.Check.HclStructDemo
/-!
# Struct types for the examples about references
-/

namespace Verif.HclS.RefsDemo
open Verif.Tree (Heap)
open Hcl (Cty Expr)
open Verif.HclS.Demo (fld str)

def fName := fld "Name" "name,optional" .str
def fConf := fld "Conf" "conf,optional" (.map .str .any)
def fHosts := fld "Hosts" "host,block" (.map .str (.ptr (.struct 1)))
def fAddr := fld "Addr" "addr,optional" .str
def fAlias := fld "Alias" "alias,optional" .str
def fPorts := fld "Ports" "port,block" (.slice (.ptr (.struct 2)))
def fVal := fld "Val" "val,optional" .str

/-- `Zone` with hosts by name, and `Host` with a list of ports. -/
def env : Env where
  struct
    | 0 => ⟨b "main.Zone", [fName, fConf, fHosts], [(b "Name", .str), (b "Conf", fConf.ty), (b "Hosts", fHosts.ty)]⟩
    | 1 => ⟨b "main.Host", [fAddr, fAlias, fPorts], [(b "Addr", .str), (b "Alias", .str), (b "Ports", fPorts.ty)]⟩
    | 2 => ⟨b "main.Port", [fVal], [(b "Val", .str)]⟩
    | n + 3 => ⟨b "main.T" ++ List.replicate n 120, [], []⟩
  impl _ _ := false
  name _ := b "?"

def ext : Ext := Demo.ext

def blank : Fields := [(b "Name", .str []), (b "Conf", .leaf 0), (b "Hosts", .leaf 0)]
def host : Fields := [(b "Addr", .str []), (b "Alias", .str []), (b "Ports", .leaf 0)]
def port : Fields := [(b "Val", .str [])]

def ref0 : GoMap Bytes Tmpl := [(b "Host", .ptr 1 host), (b "Port", .ptr 2 port)]

def spec : List (Bytes × Det.CVal) :=
  [(b "Hosts", .list [.mk (b "Host") [(b "Ports", .list [.mk (b "Port") []])]])]

/-- Decodes a document for a zone. -/
def run (ext : Ext) (doc : Body) : After := unmarshalSpec env ext 3 (some doc) 0 blank (some spec) ⟨[], ref0⟩ none []

/-- An attribute that is a reference. -/
def ref (k n : String) : Bytes × Attr := (b k, ⟨.ident (b n), []⟩)

/-- A zone with a host and three ports. -/
def zone (port1 port2 port3 : Bytes × Attr) : Body :=
  .mk [str "name" "z"] [(b "host", [b "a"], .mk [str "addr" "1.2.3.4"]
    [(b "port", [], .mk [port1] []), (b "port", [], .mk [port2] []), (b "port", [], .mk [port3] [])])]

def doc : Body := zone (ref "val" "host.a.addr") (ref "val" "var.name") (ref "val" "var.host.a.addr")
def doc' : Body := zone (str "val" "1.2.3.4") (str "val" "z") (str "val" "1.2.3.4")

end Verif.HclS.RefsDemo
