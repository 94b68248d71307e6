.lake/
build/
*.olean
*.ilean
__pycache__/
