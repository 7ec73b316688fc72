#!/bin/sh
# Build one module and print only its errors.
cd /verif/lean; lake build "$@" 2>&1 | grep -v "^warning\|linter\|Hint\|^$" | grep -A25 "error" | head -${N:-80}
